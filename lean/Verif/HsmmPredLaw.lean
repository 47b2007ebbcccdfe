import Verif.HsmmPredLemmas
import Mathlib.Data.List.GetD

/-! Lemmas for `Verif.HsmmPred`: the law of the segments. -/

namespace Verif.HPred

open Verif.Hsmm Finset MeasureTheory

/-- The segments `l` (latest first) are what is drawn, as far as they go. -/
def Draws (m : Tables ℝ) (u : ℕ → ℝ) (pos : ℕ) : List Seg → Prop
  | [] => False
  | [s] => s = initSeg m u pos
  | s :: p :: r => s = nextSeg m u (pos + 2 * (r.length + 1)) p ∧ Draws m u pos (p :: r)

/-- Nothing follows, and every earlier segment is followed by another one. -/
def Complete (m : Tables ℝ) : List Seg → Prop
  | [] => False
  | s :: r => Done m s ∧ ∀ p ∈ r, ¬ Done m p

theorem draws_start (m : Tables ℝ) (u : ℕ → ℝ) (pos : ℕ) : ∀ (r : List Seg) (s : Seg), Draws m u pos (s :: r) → r.length ≤ s.start := by
  intro r
  induction r with
  | nil => intro s _; simp
  | cons p r ih =>
    intro s h
    have := ih p h.2
    have hs : s.start = p.start + p.dur + 1 := by rw [h.1]; rfl
    simp only [List.length_cons]
    omega

theorem extend_of_draws (m : Tables ℝ) (u : ℕ → ℝ) (pos : ℕ) : ∀ (r : List Seg) (s : Seg) (n : ℕ), Draws m u pos (s :: r) →
    (∀ p ∈ r, ¬ Done m p) → extend m u pos (n + r.length) [initSeg m u pos] = extend m u pos n (s :: r) := by
  intro r
  induction r with
  | nil => intro s n h _; rw [show s = initSeg m u pos from h]; rfl
  | cons p r ih =>
    intro s n h hd
    have h1 := ih p (n + 1) h.2 fun q hq => hd q (List.mem_cons_of_mem _ hq)
    rw [show n + (p :: r).length = n + 1 + r.length by simp only [List.length_cons]; omega, h1, extend,
      if_neg (hd p List.mem_cons_self), ← h.1]

theorem extend_complete (m : Tables ℝ) (u : ℕ → ℝ) (pos : ℕ) (n : ℕ) : ∀ (r : List Seg) (s : Seg), Draws m u pos (s :: r) →
    (∀ p ∈ r, ¬ Done m p) → m.n_T ≤ n + s.start →
    Draws m u pos (extend m u pos n (s :: r)) ∧ Complete m (extend m u pos n (s :: r)) := by
  induction n with
  | zero => intro r s h hd hn; exact ⟨h, Or.inl (by omega), hd⟩
  | succ n ih =>
    intro r s h hd hn
    rw [extend]
    by_cases hs : Done m s
    · rw [if_pos hs]; exact ⟨h, hs, hd⟩
    · rw [if_neg hs]
      apply ih
      · exact ⟨rfl, h⟩
      · intro p hp
        rcases List.mem_cons.1 hp with rfl | hp
        · exact hs
        · exact hd p hp
      · simp only [nextSeg]; omega

theorem segs_eq_iff (m : Tables ℝ) (u : ℕ → ℝ) (pos : ℕ) (l : List Seg) :
    segs m u pos = l ↔ Draws m u pos l ∧ Complete m l := by
  constructor
  · rintro rfl
    exact extend_complete m u pos m.n_T [] _ rfl (by simp) (by omega)
  · rintro ⟨h, hc⟩
    cases l with
    | nil => exact absurd h id
    | cons s r =>
      have hr : r.length ≤ m.n_T := by
        cases r with
        | nil => simp
        | cons p q =>
          have h1 := draws_start m u pos (p :: q) s h
          have hs : s.start = p.start + p.dur + 1 := by rw [h.1]; rfl
          have h2 := hc.2 p List.mem_cons_self
          have : ¬ m.n_T ≤ p.start + p.dur + 1 := fun hh => h2 (Or.inl hh)
          omega
      have := extend_of_draws m u pos r s (m.n_T - r.length) h hc.2
      rw [show m.n_T - r.length + r.length = m.n_T by omega] at this
      unfold segs
      rw [this]
      cases m.n_T - r.length with
      | zero => rfl
      | succ k => rw [extend, if_pos hc.1]

/-! ## Boxes -/

/-- One set of random numbers per draw. -/
def boxes (m : Tables ℝ) : List Seg → List (Set ℝ)
  | [] => []
  | [s] => [{x | pick m.n_S m.pi x = s.state}, {x | pick (m.D - 1) (fun d => m.ds d s.state 0) x = s.dur}]
  | s :: p :: r => boxes m (p :: r) ++
      [{x | pick m.n_S (fun j => m.T p.state j (s.start - 1)) x = s.state},
       {x | pick (m.D - 1) (fun d => m.ds d (m.dcol s.state) s.start) x = s.dur}]

theorem boxes_length (m : Tables ℝ) : ∀ (r : List Seg) (s : Seg), (boxes m (s :: r)).length = 2 * (r.length + 1) := by
  intro r
  induction r with
  | nil => intro s; rfl
  | cons p r ih =>
    intro s
    rw [boxes, List.length_append, ih p]
    simp only [List.length_cons, List.length_nil]
    omega

/-- The stream from `pos` on goes through the sets `L`. -/
def Through (u : ℕ → ℝ) (pos : ℕ) (L : List (Set ℝ)) : Prop := ∀ k (h : k < L.length), u (pos + k) ∈ L[k]

theorem through_append (u : ℕ → ℝ) (pos : ℕ) (L : List (Set ℝ)) (A B : Set ℝ) :
    Through u pos (L ++ [A, B]) ↔ Through u pos L ∧ u (pos + L.length) ∈ A ∧ u (pos + L.length + 1) ∈ B := by
  constructor
  · intro h
    refine ⟨fun k hk => ?_, ?_, ?_⟩
    · have := h k (by simp; omega)
      rwa [List.getElem_append_left hk] at this
    · have := h L.length (by simp)
      simpa using this
    · have := h (L.length + 1) (by simp)
      rw [List.getElem_append_right (by omega)] at this
      simpa [add_assoc] using this
  · rintro ⟨h1, h2, h3⟩ k hk
    rcases lt_trichotomy k L.length with hlt | rfl | hgt
    · rw [List.getElem_append_left hlt]; exact h1 k hlt
    · simpa using h2
    · obtain rfl : k = L.length + 1 := by simp at hk; omega
      rw [List.getElem_append_right (by omega)]
      simpa [add_assoc] using h3

theorem seg_ext {a b : Seg} (h1 : a.start = b.start) (h2 : a.dur = b.dur) (h3 : a.state = b.state) : a = b := by
  cases a; cases b; simp only at h1 h2 h3; subst h1; subst h2; subst h3; rfl

theorem draws_iff (m : Tables ℝ) (u : ℕ → ℝ) (pos : ℕ) : ∀ (r : List Seg) (s : Seg), Chained (s :: r) →
    (Draws m u pos (s :: r) ↔ Through u pos (boxes m (s :: r))) := by
  intro r
  induction r with
  | nil =>
    intro s hc
    have hs : s.start = 0 := hc
    rw [show boxes m [s] = [] ++ [{x | pick m.n_S m.pi x = s.state}, {x | pick (m.D - 1) (fun d => m.ds d s.state 0) x = s.dur}]
      from rfl, through_append]
    simp only [Draws, Set.mem_ofPred_eq, List.length_nil, add_zero]
    constructor
    · intro h
      refine ⟨fun k hk => absurd hk (by simp), ?_, ?_⟩
      · rw [h]; rfl
      · rw [h]; rfl
    · rintro ⟨_, h1, h2⟩
      apply seg_ext
      · rw [hs]; rfl
      · rw [← h2]; simp only [initSeg]; rw [h1]
      · rw [← h1]; rfl
  | cons p r ih =>
    intro s hc
    obtain ⟨hs, _, hp⟩ := hc
    rw [boxes, through_append, ← ih p hp, boxes_length]
    simp only [Draws, Set.mem_ofPred_eq]
    have e : s.start - 1 = p.start + p.dur + 1 - 1 := by omega
    constructor
    · rintro ⟨h, hd⟩
      refine ⟨hd, ?_, ?_⟩
      · rw [e]
        conv_rhs => rw [h]
        rfl
      · rw [hs]
        have h3 : s.state = pick m.n_S (fun j => m.T p.state j (p.start + p.dur + 1 - 1)) (u (pos + 2 * (r.length + 1))) := by
          conv_lhs => rw [h]
          rfl
        conv_rhs => rw [h]
        simp only [nextSeg]
        rw [← h3]
    · rintro ⟨hd, h1, h2⟩
      refine ⟨?_, hd⟩
      rw [e] at h1
      rw [hs] at h2
      apply seg_ext
      · rw [hs]; rfl
      · rw [← h2]; simp only [nextSeg]; rw [h1]
      · rw [← h1]; rfl

/-! ## Measure of a box -/

/-- Uniform law on `[0, 1)`. -/
noncomputable def unif : Measure ℝ := volume.restrict (Set.Ico (0 : ℝ) 1)

instance : IsProbabilityMeasure unif := ⟨by simp [unif]⟩

/-- Independent uniform random numbers. -/
noncomputable def streams : Measure (ℕ → ℝ) := Measure.infinitePi fun _ => unif

instance : IsProbabilityMeasure streams := by unfold streams; infer_instance

theorem pick_measurable (n : ℕ) (w : ℕ → ℝ) : Measurable (pick n w) := by
  have : pick n w = fun x => ∑ k ∈ range n, if (∑ i ∈ range (k + 1), w i) / (∑ i ∈ range n, w i) ≤ x then 1 else 0 := by
    funext x
    unfold pick
    rw [card_filter]
  rw [this]
  exact Finset.measurable_sum _ fun k _ => Measurable.ite measurableSet_Ici measurable_const measurable_const

theorem pick_meas (n : ℕ) (w : ℕ → ℝ) (i : ℕ) : MeasurableSet {x | pick n w x = i} :=
  pick_measurable n w (measurableSet_singleton i)

theorem unif_pick (n : ℕ) (w : ℕ → ℝ) (h0 : ∀ k, 0 ≤ w k) (h1 : ∑ i ∈ range n, w i = 1) (i : ℕ) (hi : i < n) :
    unif {x | pick n w x = i} = ENNReal.ofReal (w i) := by
  have e : {x | pick n w x = i} ∩ Set.Ico (0 : ℝ) 1 = Set.Ico (∑ k ∈ range i, w k) (∑ k ∈ range (i + 1), w k) := by
    ext x
    constructor
    · rintro ⟨h, hx⟩
      exact (pick_eq n w h0 h1 x hx i hi).1 h
    · intro h
      have hx : x ∈ Set.Ico (0 : ℝ) 1 := by
        refine ⟨(sum_nonneg fun k _ => h0 k).trans h.1, lt_of_lt_of_le h.2 ?_⟩
        rw [← h1]
        exact sum_le_sum_of_subset_of_nonneg (range_subset_range.2 hi) fun k _ _ => h0 k
      exact ⟨(pick_eq n w h0 h1 x hx i hi).2 h, hx⟩
  unfold unif
  rw [Measure.restrict_apply (pick_meas n w i), e, Real.volume_Ico, sum_range_succ]
  congr 1
  ring

theorem prod_getD (M : List ENNReal) : ∏ k ∈ range M.length, M.getD k 1 = M.prod := by
  induction M with
  | nil => simp
  | cons a M ih =>
    rw [List.length_cons, prod_range_succ', List.prod_cons, ← ih, mul_comm]
    rfl

theorem streams_through (pos : ℕ) (L : List (Set ℝ)) (hL : ∀ A ∈ L, MeasurableSet A) :
    streams {u | Through u pos L} = (L.map unif).prod := by
  have e : {u | Through u pos L} = Set.pi (Finset.Ico pos (pos + L.length) : Finset ℕ) fun i => L.getD (i - pos) Set.univ := by
    ext u
    simp only [Set.mem_ofPred_eq, Through, Set.mem_pi, coe_Ico, Set.mem_Ico]
    constructor
    · intro h i hi
      have := h (i - pos) (by omega)
      rw [List.getD_eq_getElem _ _ (by omega : i - pos < L.length)]
      rwa [show pos + (i - pos) = i by omega] at this
    · intro h k hk
      have := h (pos + k) (by omega)
      rw [show pos + k - pos = k by omega, List.getD_eq_getElem _ _ hk] at this
      exact this
  rw [e, streams, Measure.infinitePi_pi]
  · rw [Finset.prod_Ico_eq_prod_range, show pos + L.length - pos = L.length by omega]
    clear e hL
    have : ∀ k ∈ range L.length, unif (L.getD (pos + k - pos) Set.univ) = (L.map unif).getD k 1 := by
      intro k hk
      have hk := mem_range.1 hk
      rw [show pos + k - pos = k by omega, List.getD_eq_getElem _ _ hk, List.getD_eq_getElem _ _ (by simpa using hk)]
      simp
    rw [prod_congr rfl this, ← prod_getD (L.map unif), List.length_map]
  · intro i _
    by_cases h : i - pos < L.length
    · rw [List.getD_eq_getElem _ _ h]; exact hL _ (List.getElem_mem h)
    · rw [List.getD_eq_default _ _ (by omega)]; exact MeasurableSet.univ

theorem boxes_measurable (m : Tables ℝ) : ∀ (r : List Seg) (s : Seg), ∀ A ∈ boxes m (s :: r), MeasurableSet A := by
  intro r
  induction r with
  | nil =>
    intro s A hA
    simp only [boxes, List.mem_cons, List.not_mem_nil, or_false] at hA
    rcases hA with rfl | rfl <;> exact pick_meas _ _ _
  | cons p r ih =>
    intro s A hA
    rw [boxes, List.mem_append] at hA
    rcases hA with h | h
    · exact ih p A h
    · simp only [List.mem_cons, List.not_mem_nil, or_false] at h
      rcases h with rfl | rfl <;> exact pick_meas _ _ _

theorem free_obsProd (m : Tables ℝ) (t : ℕ) (s : Seg) : obsProd (free m) t s = 1 := by
  unfold obsProd
  apply prod_eq_one
  intro k _
  unfold obs
  simp [free]

theorem free_nonneg (m : Tables ℝ) (hm : Stochastic m) (l : List Seg) : 0 ≤ weight (free m) l := by
  unfold weight
  generalize (free m).n_T - 1 = t
  induction l with
  | nil => simp [weightUpTo]
  | cons s r ih =>
    cases r with
    | nil =>
      rw [weightUpTo, free_obsProd, mul_one]
      exact mul_nonneg (hm.pi0 _) (hm.ds0 _ _ _)
    | cons p r =>
      rw [weightUpTo, free_obsProd, mul_one]
      exact mul_nonneg (mul_nonneg (hm.T0 _ _ _) (hm.ds0 _ _ _)) ih

theorem boxes_prod (m : Tables ℝ) (hm : Stochastic m) : ∀ (r : List Seg) (s : Seg), (∀ q ∈ s :: r, SegOk m q) →
    ((boxes m (s :: r)).map unif).prod = ENNReal.ofReal (weight (free m) (s :: r)) := by
  intro r
  induction r with
  | nil =>
    intro s hok
    obtain ⟨hj, hd, _⟩ := hok s List.mem_cons_self
    simp only [boxes, List.map_cons, List.map_nil, List.prod_cons, List.prod_nil, mul_one]
    rw [unif_pick _ _ hm.pi0 hm.pi1 _ hj, unif_pick _ _ (fun d => hm.ds0 d _ _) (hm.ds1 _ hj 0).1 _ hd,
      ← ENNReal.ofReal_mul (hm.pi0 _)]
    congr 1
    rw [weight, weightUpTo, free_obsProd, mul_one]
    rfl
  | cons p r ih =>
    intro s hok
    obtain ⟨hj, hd, _⟩ := hok s List.mem_cons_self
    have hp := (hok p (by simp)).1
    rw [boxes, List.map_append, List.prod_append, ih p fun q hq => hok q (List.mem_cons_of_mem _ hq)]
    simp only [List.map_cons, List.map_nil, List.prod_cons, List.prod_nil, mul_one]
    rw [unif_pick _ _ (fun j => hm.T0 _ j _) (hm.T1 _ hp _) _ hj,
      unif_pick _ _ (fun d => hm.ds0 d _ _) (hm.ds1 _ hj _).2 _ hd,
      ← ENNReal.ofReal_mul (hm.T0 _ _ _), ← ENNReal.ofReal_mul (free_nonneg m hm _)]
    congr 1
    conv_rhs => rw [weight, weightUpTo, free_obsProd, mul_one, mul_comm]
    rfl

/-! ## Admissible segmentations -/

theorem chained_tail (s : Seg) : ∀ (r : List Seg), Chained (s :: r) → ∀ p ∈ r, p.start + p.dur + 1 ≤ s.start := by
  intro r
  induction r generalizing s with
  | nil => intro _ p hp; exact absurd hp (by simp)
  | cons q r ih =>
    rintro ⟨h1, _, h2⟩ p hp
    rcases List.mem_cons.1 hp with rfl | hp
    · omega
    · have := ih q h2 p hp
      omega

theorem complete_of_admissible (m : Tables ℝ) (hh : m.hmp = false) (l : List Seg) (h : Admissible (free m) l) : Complete m l := by
  obtain ⟨hc, _, s, r, rfl, h1, h2, _⟩ := h
  refine ⟨Or.inl h2, ?_⟩
  intro p hp
  have h3 := chained_tail s r hc p hp
  have h4 : (free m).n_T = m.n_T := rfl
  rintro (h | ⟨h, _⟩)
  · omega
  · rw [hh] at h; exact absurd h (by decide)

/-- Probability of a segmentation. -/
theorem segs_law (m : Tables ℝ) (hm : Stochastic m) (hh : m.hmp = false) (pos : ℕ) (l : List Seg) (hl : Admissible (free m) l) :
    MeasurableSet {u | segs m u pos = l} ∧ streams {u | segs m u pos = l} = ENNReal.ofReal (weight (free m) l) := by
  have hcomp := complete_of_admissible m hh l hl
  obtain ⟨hc, hok, s, r, rfl, _⟩ := hl
  have e : {u | segs m u pos = s :: r} = {u | Through u pos (boxes m (s :: r))} := by
    ext u
    simp only [Set.mem_ofPred_eq]
    rw [segs_eq_iff, draws_iff m u pos r s hc]
    exact ⟨fun h => h.1, fun h => ⟨h, hcomp⟩⟩
  constructor
  · rw [e]
    have : {u | Through u pos (boxes m (s :: r))} = ⋂ k, ⋂ (h : k < (boxes m (s :: r)).length), {u | u (pos + k) ∈ (boxes m (s :: r))[k]} := by
      ext u; simp [Through]
    rw [this]
    refine MeasurableSet.iInter fun k => MeasurableSet.iInter fun h => ?_
    exact measurable_pi_apply (pos + k) (boxes_measurable m r s _ (List.getElem_mem h))
  · rw [e, streams_through _ _ (boxes_measurable m r s), boxes_prod m hm r s hok]

theorem draws_admissible (m : Tables ℝ) (hm : Stochastic m) (hh : m.hmp = false) (u : ℕ → ℝ) (hu : ∀ k, u k ∈ Set.Ico (0 : ℝ) 1)
    (pos : ℕ) : ∀ (r : List Seg) (s : Seg), Draws m u pos (s :: r) → Chained (s :: r) ∧ ∀ q ∈ s :: r, SegOk m q := by
  intro r
  induction r with
  | nil =>
    intro s h
    have h : s = initSeg m u pos := h
    have hj : s.state < m.n_S := by rw [h]; exact pick_lt _ _ hm.pi0 hm.pi1 _ (hu _)
    refine ⟨by rw [h]; rfl, ?_⟩
    intro q hq
    obtain rfl : q = s := by simpa using hq
    refine ⟨hj, ?_, fun h => absurd h (by rw [hh]; decide)⟩
    rw [h] at hj ⊢
    exact pick_lt _ _ (fun d => hm.ds0 d _ _) (hm.ds1 _ hj 0).1 _ (hu _)
  | cons p r ih =>
    intro s h
    obtain ⟨hc, hok⟩ := ih p h.2
    have hp := (hok p List.mem_cons_self).1
    obtain ⟨k, hk⟩ : ∃ k, k = pos + 2 * (r.length + 1) := ⟨_, rfl⟩
    have h1 : s = nextSeg m u k p := by rw [hk]; exact h.1
    have hjs : s.state = pick m.n_S (fun j => m.T p.state j (p.start + p.dur + 1 - 1)) (u k) := by rw [h1]; rfl
    have hj : s.state < m.n_S := by rw [hjs]; exact pick_lt _ _ (fun j => hm.T0 _ j _) (hm.T1 _ hp _) _ (hu _)
    have hne : s.state ≠ p.state := by
      intro he
      have := pick_pos m.n_S (fun j => m.T p.state j (p.start + p.dur + 1 - 1)) (fun j => hm.T0 _ j _) (hm.T1 _ hp _) _ (hu k)
      rw [← hjs, he, hm.Tdiag] at this
      exact lt_irrefl _ this
    have hd : s.dur < m.D - 1 := by
      have : s.dur = pick (m.D - 1) (fun d => m.ds d (m.dcol s.state) (p.start + p.dur + 1)) (u (k + 1)) := by rw [h1]; rfl
      rw [this]
      exact pick_lt _ _ (fun d => hm.ds0 d _ _) (hm.ds1 _ hj _).2 _ (hu _)
    refine ⟨⟨by rw [h1]; rfl, hne, hc⟩, ?_⟩
    intro q hq
    rcases List.mem_cons.1 hq with rfl | hq
    · exact ⟨hj, hd, fun h => absurd h (by rw [hh]; decide)⟩
    · exact hok q hq

theorem segs_admissible (m : Tables ℝ) (hm : Stochastic m) (hh : m.hmp = false) (hT : 0 < m.n_T) (u : ℕ → ℝ)
    (hu : ∀ k, u k ∈ Set.Ico (0 : ℝ) 1) (pos : ℕ) : Admissible (free m) (segs m u pos) := by
  obtain ⟨hd, hc⟩ := (segs_eq_iff m u pos _).1 rfl
  generalize segs m u pos = l at hd hc
  cases l with
  | nil => exact absurd hd id
  | cons s r =>
    obtain ⟨h1, h2⟩ := draws_admissible m hm hh u hu pos r s hd
    refine ⟨h1, h2, s, r, rfl, ?_, ?_, fun h => absurd h (by simp [free]), fun h => absurd h (by simp [free])⟩
    · cases r with
      | nil => rw [show s.start = 0 from h1]; exact hT
      | cons p r =>
        have hnd := hc.2 p List.mem_cons_self
        have : ¬ m.n_T ≤ p.start + p.dur + 1 := fun hh => hnd (Or.inl hh)
        rw [h1.1]
        exact not_le.1 this
    · rcases hc.1 with h | ⟨h, _⟩
      · exact h
      · rw [hh] at h; exact absurd h (by decide)

theorem streams_ae : ∀ᵐ u ∂streams, ∀ k, u k ∈ Set.Ico (0 : ℝ) 1 := by
  rw [ae_all_iff]
  intro k
  have h1 : streams {u : ℕ → ℝ | u k ∈ Set.Ico (0 : ℝ) 1} = 1 := by
    have e : {u : ℕ → ℝ | u k ∈ Set.Ico (0 : ℝ) 1} = {u | Through u k [Set.Ico (0 : ℝ) 1]} := by
      ext u
      simp only [Set.mem_ofPred_eq, Through]
      constructor
      · intro h i hi
        obtain rfl : i = 0 := by simpa using hi
        exact h
      · intro h; exact h 0 (by simp)
    rw [e, streams_through _ _ (by simp [measurableSet_Ico])]
    simp [unif]
  have hmeas : MeasurableSet {u : ℕ → ℝ | u k ∈ Set.Ico (0 : ℝ) 1} := measurable_pi_apply k measurableSet_Ico
  rw [ae_iff]
  have := prob_compl_eq_one_sub (μ := streams) hmeas
  rw [h1, tsub_self] at this
  exact this

/-- Probability of what can be read off the segments. -/
theorem segs_event (m : Tables ℝ) (hm : Stochastic m) (hh : m.hmp = false) (hT : 0 < m.n_T) (pos : ℕ) (A : Finset (List Seg))
    (hA : ∀ l, l ∈ A ↔ Admissible (free m) l) (P : List Seg → Prop) [DecidablePred P] :
    streams {u | P (segs m u pos)} = ENNReal.ofReal (∑ l ∈ A.filter P, weight (free m) l) := by
  have e : {u | P (segs m u pos)} =ᵐ[streams] ⋃ l ∈ A.filter P, {u | segs m u pos = l} := by
    filter_upwards [streams_ae] with u hu
    apply propext
    have hadm := segs_admissible m hm hh hT u hu pos
    constructor
    · intro h
      exact Set.mem_biUnion (mem_coe.2 (mem_filter.2 ⟨(hA _).2 hadm, h⟩)) rfl
    · intro h
      obtain ⟨l, hl, hul⟩ := Set.mem_iUnion₂.1 h
      have : segs m u pos = l := hul
      exact (show P (segs m u pos) from this ▸ (mem_filter.1 hl).2)
  rw [measure_congr e, measure_biUnion_finset]
  · rw [ENNReal.ofReal_sum_of_nonneg fun l _ => free_nonneg m hm l]
    apply sum_congr rfl
    intro l hl
    exact (segs_law m hm hh pos l ((hA l).1 (mem_filter.1 hl).1)).2
  · intro l _ l' _ hne
    rw [Function.onFun, Set.disjoint_left]
    intro u h1 h2
    exact hne ((show segs m u pos = l from h1).symm.trans h2)
  · intro l hl
    exact (segs_law m hm hh pos l ((hA l).1 (mem_filter.1 hl).1)).1

theorem later_stochastic (m : Tables ℝ) (hm : Stochastic m) (hS : 0 < m.n_S) : Stochastic (later m) := by
  have hD : m.D - 1 ≠ 0 := by
    intro h
    have := (hm.ds1 0 hS 0).1
    rw [h] at this
    simp at this
  have hsum : ∀ c t, ∑ d ∈ range ((later m).D - 1), (later m).ds d c t = ∑ d ∈ range (m.D - 1), m.ds d c t := by
    intro c t
    have : (later m).D - 1 = (m.D - 1) + 1 := by simp only [later]; omega
    rw [this, sum_range_succ', later_ds_zero, add_zero]
    exact sum_congr rfl fun d _ => later_ds m d c t
  refine ⟨hm.pi0, hm.pi1, ?_, ?_, ?_, ?_, ?_⟩
  · intro d c t
    cases d with
    | zero => rw [later_ds_zero]
    | succ d => rw [later_ds]; exact hm.ds0 _ _ _
  · intro j hj t
    rw [hsum, hsum]
    exact hm.ds1 j hj t
  · intro i j t; exact hm.T0 _ _ (t + 1)
  · intro i hi t; exact hm.T1 i hi (t + 1)
  · intro i t; exact hm.Tdiag i (t + 1)

end Verif.HPred
