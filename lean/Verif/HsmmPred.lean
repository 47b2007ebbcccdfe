import Verif.HsmmPredLaw

/-!
# Simulated series (property C98)

`HSMMFamily.predict` is meant to draw state and observation series from the model whose likelihood the family computes.
-/

namespace Verif.HPred

open Verif.Hsmm Finset MeasureTheory

/-- The state series of a segmentation. -/
def readOff (n : ℕ) (l : List Seg) : List ℕ := (List.range n).map (stateAt l)

/-- C98. Drawing segment after segment, each lasting `d + 1` time points when position `d` of its duration table is drawn, is
simulation from the model of the likelihood: a state series is obtained with the total probability of the segmentations it can be read off. -/
theorem segments_law (m : Tables ℝ) (hm : Stochastic m) (hh : m.hmp = false) (hT : 0 < m.n_T) (pos : ℕ) (A : Finset (List Seg))
    (hA : ∀ l, l ∈ A ↔ Admissible (free m) l) (s : List ℕ) :
    streams {u | readOff m.n_T (segs m u pos) = s} =
      ENNReal.ofReal (∑ l ∈ A.filter (fun l => readOff m.n_T l = s), weight (free m) l) :=
  segs_event m hm hh hT pos A hA fun l => readOff m.n_T l = s

/-- C98, what is drawn instead. With independent uniform random numbers the state series returned by `predict` has the
probability of a different model: every duration is one time point longer, and the transition table is read one time
point later. The full claim, with `m` in place of `later m`, is false (`predict_law_wrong`). -/
theorem predict_law_partial (m : Tables ℝ) (hm : Stochastic m) (hh : m.hmp = false) (hT : 0 < m.n_T) (hS : 0 < m.n_S) (pos : ℕ)
    (A : Finset (List Seg)) (hA : ∀ l, l ∈ A ↔ Admissible (free (later m)) l) (s : List ℕ) :
    streams {u | states m u pos = s} =
      ENNReal.ofReal (∑ l ∈ A.filter (fun l => readOff m.n_T l = s), weight (free (later m)) l) := by
  have hD : 0 < m.D := by
    by_contra h
    have := (hm.ds1 0 hS 0).1
    rw [show m.D - 1 = 0 by omega] at this
    simp at this
  refine Eq.trans ?_ (segments_law (later m) (later_stochastic m hm hS) hh hT pos A hA s)
  apply measure_congr
  filter_upwards [streams_ae] with u hu
  apply propext
  show states m u pos = s ↔ readOff m.n_T (segs (later m) u pos) = s
  rw [states_eq m u (fun k => (hu k).1) hD]
  rfl

/-- C98, event models included. Whatever the random numbers, state and remaining duration at every time point are those of the
segments drawn from the later model. -/
theorem predict_segments_partial (m : Tables ℝ) (u : ℕ → ℝ) (hu : ∀ k, 0 ≤ u k) (hD : 0 < m.D) (pos : ℕ) :
    (sample m u pos).1 = (List.range m.n_T).map (now (segs (later m) u pos)) :=
  sample_eq m u hu hD pos

/-- Two states that take turns at every time point. -/
noncomputable def turns : Tables ℝ where
  n_T := 2
  D := 2
  n_S := 2
  event_width := 0
  starts_with_first := true
  ends_with_last := false
  ends_in_last := false
  hmp := false
  tvdtpi := false
  bs2 := fun _ _ => 1
  bs3 := fun _ _ _ => 1
  ds2 := fun d _ => if d = 0 then 1 else 0
  ds3 := fun d _ _ => if d = 0 then 1 else 0
  T2 := fun i j => if i + j = 1 then 1 else 0
  T3 := fun i j _ => if i + j = 1 then 1 else 0
  pi := fun j => if j = 0 then 1 else 0

theorem turns_stochastic : Stochastic turns where
  pi0 := by intro j; simp only [turns]; split_ifs <;> norm_num
  pi1 := by simp [turns, sum_range_succ]
  ds0 := by intro d c t; simp only [turns, Tables.ds]; split_ifs <;> norm_num
  ds1 := by intro j _ t; simp [turns, Tables.ds]
  T0 := by intro i j t; simp only [turns, Tables.T]; split_ifs <;> norm_num
  T1 := by
    intro i hi t
    have : i = 0 ∨ i = 1 := by simp only [turns] at hi; omega
    rcases this with rfl | rfl <;> simp [turns, Tables.T, sum_range_succ]
  Tdiag := by
    intro i t
    show (if i + i = 1 then (1 : ℝ) else 0) = 0
    exact if_neg (by omega)

theorem turns_states (u : ℕ → ℝ) (hu : ∀ k, u k ∈ Set.Ico (0 : ℝ) 1) (pos : ℕ) : states turns u pos = [0, 0] := by
  have h1 : pick turns.n_S turns.pi (u pos) = 0 :=
    pick_only _ _ 0 (by decide) (by simp [turns]) (fun k hk => by simp [turns, hk]) _ (hu _)
  have h2 : pick (turns.D - 1) (fun d => turns.ds d 0 0) (u (pos + 1)) = 0 :=
    pick_only _ _ 0 (by decide) (by simp [turns, Tables.ds]) (fun k hk => by simp [turns, Tables.ds, hk]) _ (hu _)
  unfold states sample initial
  simp only [h1, h2]
  show List.map Prod.fst (walk turns u 2 0 _).1 = _
  simp [walk, top]

/-- C98 fails: with durations of one time point the two states take turns, the likelihood gives the series `0, 0` probability
zero, and `predict` always returns it. -/
theorem predict_law_wrong : ¬ ∀ m : Tables ℝ, Stochastic m → m.hmp = false → 0 < m.n_T → 0 < m.n_S → ∀ A : Finset (List Seg),
    (∀ l, l ∈ A ↔ Admissible (free m) l) → ∀ s : List ℕ, streams {u | states m u 0 = s} =
      ENNReal.ofReal (∑ l ∈ A.filter (fun l => readOff m.n_T l = s), weight (free m) l) := by
  intro h
  have h := h turns turns_stochastic rfl (by decide) (by decide) (allSegs (free turns))
    (fun l => mem_allSegs (free turns) (by decide) l) [0, 0]
  have h1 : streams {u | states turns u 0 = [0, 0]} = 1 := by
    have : {u | states turns u 0 = [0, 0]} =ᵐ[streams] Set.univ := by
      filter_upwards [streams_ae] with u hu
      apply propext
      exact ⟨fun _ => trivial, fun _ => turns_states u hu 0⟩
    rw [measure_congr this, measure_univ]
  have h2 : (allSegs (free turns)).filter (fun l => readOff turns.n_T l = [0, 0]) = ∅ := by
    rw [filter_eq_empty_iff]
    intro l hl hr
    obtain ⟨hc, hok, a, r, rfl, ha1, ha2, _⟩ := (mem_allSegs (free turns) (by decide) l).1 hl
    have hd : ∀ q ∈ a :: r, q.dur = 0 := by
      intro q hq
      have := (hok q hq).2.1
      simp only [free, turns] at this
      omega
    have had := hd a List.mem_cons_self
    simp only [free, turns] at ha1 ha2
    have hs : a.start = 1 := by omega
    cases r with
    | nil => have : a.start = 0 := hc; omega
    | cons p q =>
      obtain ⟨e1, e2, _⟩ := hc
      have hpd := hd p (by simp)
      have hr : [stateAt (a :: p :: q) 0, stateAt (a :: p :: q) 1] = [0, 0] := hr
      simp only [stateAt, List.cons.injEq, and_true] at hr
      rw [if_neg (by omega), if_pos (by omega), if_pos (by omega)] at hr
      exact e2 (hr.2.trans hr.1.symm)
  rw [h1, h2] at h
  simp at h

/-- C98, transition table. Three states with tables that change over time: whatever the random numbers, `predict` enters
state 1 at time 2, although the likelihood gives probability zero to every segmentation with a segment in state 1 that starts at time 2. -/
noncomputable def changing : Tables ℝ where
  n_T := 3
  D := 2
  n_S := 3
  event_width := 0
  starts_with_first := true
  ends_with_last := false
  ends_in_last := false
  hmp := false
  tvdtpi := true
  bs2 := fun _ _ => 1
  bs3 := fun _ _ _ => 1
  ds2 := fun d _ => if d = 0 then 1 else 0
  ds3 := fun d _ _ => if d = 0 then 1 else 0
  T2 := fun _ _ => 0
  T3 := fun i j t => if j = (if i = 0 then (if t = 1 then 2 else 1) else 0) then 1 else 0
  pi := fun j => if j = 0 then 1 else 0

theorem changing_stochastic : Stochastic changing where
  pi0 := by intro j; simp only [changing]; split_ifs <;> norm_num
  pi1 := by simp [changing, sum_range_succ]
  ds0 := by intro d c t; simp only [changing, Tables.ds]; split_ifs <;> norm_num
  ds1 := by intro j _ t; simp [changing, Tables.ds]
  T0 := by
    intro i j t
    show (0 : ℝ) ≤ if j = _ then 1 else 0
    by_cases h : j = (if i = 0 then (if t = 1 then 2 else 1) else 0)
    · rw [if_pos h]; norm_num
    · rw [if_neg h]
  T1 := by
    intro i _ t
    show ∑ j ∈ range 3, (if j = (if i = 0 then (if t = 1 then 2 else 1) else 0) then (1 : ℝ) else 0) = 1
    rw [sum_ite_eq', if_pos]
    rw [mem_range]
    split_ifs <;> norm_num
  Tdiag := by
    intro i t
    show (if i = (if i = 0 then (if t = 1 then 2 else 1) else 0) then (1 : ℝ) else 0) = 0
    apply if_neg
    split_ifs <;> omega

/-- C98 fails for time-varying transition tables: see `changing`. `predict` reads the table at the time point of the entry, the likelihood
at the time point before. -/
theorem transition_time_wrong :
    (∀ u : ℕ → ℝ, (∀ k, u k ∈ Set.Ico (0 : ℝ) 1) → ∀ pos, states changing u pos = [0, 0, 1]) ∧
    (∀ l, Admissible (free changing) l → (∃ q ∈ l, q.start = 2 ∧ q.state = 1) → weight (free changing) l = 0) := by
  constructor
  · intro u hu pos
    have h1 : pick changing.n_S changing.pi (u pos) = 0 :=
      pick_only _ _ 0 (by decide) (by simp [changing]) (fun k hk => by simp [changing, hk]) _ (hu _)
    have h2 : ∀ c t x, x ∈ Set.Ico (0 : ℝ) 1 → pick (changing.D - 1) (fun d => changing.ds d c t) x = 0 := fun c t x hx =>
      pick_only _ _ 0 (by decide) (by simp [changing, Tables.ds]) (fun k hk => by simp [changing, Tables.ds, hk]) _ hx
    have h3 : pick changing.n_S (fun j => changing.T 0 j 2) (u (pos + 2)) = 1 :=
      pick_only _ _ 1 (by decide) (by simp [changing, Tables.T]) (fun k hk => by simp [changing, Tables.T, hk]) _ (hu _)
    unfold states sample initial
    simp only [h1, h2 _ _ _ (hu _)]
    show List.map Prod.fst (walk changing u 3 0 _).1 = _
    simp only [walk, top]
    norm_num
    rw [if_neg (by simp [changing])]
    simp [h3]
  · rintro l ⟨hc, -, -⟩ ⟨q, hq, hs, hj⟩
    unfold weight
    generalize (free changing).n_T - 1 = t
    induction l with
    | nil => exact absurd hq (by simp)
    | cons a r ih =>
      cases r with
      | nil =>
        obtain rfl : q = a := by simpa using hq
        have : q.start = 0 := hc
        omega
      | cons p r =>
        rw [weightUpTo]
        rcases List.mem_cons.1 hq with rfl | hq
        · have : (free changing).T p.state q.state (q.start - 1) = 0 := by
            rw [hs, hj]
            show (if 1 = (if p.state = 0 then 2 else 0) then (1 : ℝ) else 0) = 0
            apply if_neg
            split_ifs <;> decide
          rw [this]
          ring
        · rw [ih hc.2.2 hq, mul_zero]

/-! ## Bumps of event models -/

/-- Bumps last as long as the template, as set up by `_compute_series_probs` (hsmm.py 690-692). -/
def BumpTable (m : Tables ℝ) : Prop := ∀ j, j % 2 = 1 → ∀ d t, m.ds d j t ≠ 0 → d + 1 = m.event_width

theorem now_mem (l : List Seg) (t : ℕ) (h : (now l t).1 ≠ 0) :
    ∃ q ∈ l, q.start ≤ t ∧ now l t = (q.state, max 0 ((q.start + q.dur : ℤ) - t)) := by
  induction l with
  | nil => exact absurd rfl h
  | cons s r ih =>
    by_cases hs : s.start ≤ t
    · exact ⟨s, List.mem_cons_self, hs, if_pos hs⟩
    · rw [now, if_neg hs] at h ⊢
      obtain ⟨q, hq, h1⟩ := ih h
      exact ⟨q, List.mem_cons_of_mem _ hq, h1⟩

theorem mem_draws (m : Tables ℝ) (hm : Stochastic m) (hsw : m.starts_with_first = true) (hb : BumpTable m) (u : ℕ → ℝ)
    (hu : ∀ k, u k ∈ Set.Ico (0 : ℝ) 1) (pos : ℕ) : ∀ (r : List Seg) (s : Seg), Draws m u pos (s :: r) →
      (∀ q ∈ s :: r, q.state < m.n_S ∧ (q.state % 2 = 1 → q.dur + 1 = m.event_width)) ∧
      (∀ q ∈ r, q.start + q.dur < s.start) ∧
      (∀ q ∈ s :: r, ∀ t, q.start ≤ t → t ≤ q.start + q.dur → now (s :: r) t = (q.state, (q.start + q.dur : ℤ) - t)) := by
  have hcol : ∀ j, m.dcol j = j := by intro j; simp [Tables.dcol, hsw]
  intro r
  induction r with
  | nil =>
    intro s h
    have h : s = initSeg m u pos := h
    have hj : s.state < m.n_S := by rw [h]; exact pick_lt _ _ hm.pi0 hm.pi1 _ (hu _)
    refine ⟨?_, by simp, ?_⟩
    · intro q hq
      obtain rfl : q = s := by simpa using hq
      refine ⟨hj, fun ho => hb _ ho _ 0 ?_⟩
      have := pick_pos (m.D - 1) (fun d => m.ds d q.state 0) (fun d => hm.ds0 d _ _) (hm.ds1 _ hj 0).1 _ (hu (pos + 1))
      have e : q.dur = pick (m.D - 1) (fun d => m.ds d q.state 0) (u (pos + 1)) := by rw [h]; rfl
      rw [e]
      exact ne_of_gt this
    · intro q hq t h1 h2
      obtain rfl : q = s := by simpa using hq
      rw [now, if_pos h1, max_eq_right (by omega)]
  | cons p r ih =>
    intro s h
    obtain ⟨ih1, ih2, ih3⟩ := ih p h.2
    have hp := (ih1 p List.mem_cons_self).1
    obtain ⟨k, hk⟩ : ∃ k, k = pos + 2 * (r.length + 1) := ⟨_, rfl⟩
    have h1 : s = nextSeg m u k p := by rw [hk]; exact h.1
    have hst : s.start = p.start + p.dur + 1 := by rw [h1]; rfl
    have hjs : s.state = pick m.n_S (fun j => m.T p.state j (p.start + p.dur + 1 - 1)) (u k) := by rw [h1]; rfl
    have hj : s.state < m.n_S := by rw [hjs]; exact pick_lt _ _ (fun j => hm.T0 _ j _) (hm.T1 _ hp _) _ (hu _)
    have hd : s.dur = pick (m.D - 1) (fun d => m.ds d s.state (p.start + p.dur + 1)) (u (k + 1)) := by
      have : s.dur = pick (m.D - 1) (fun d => m.ds d (m.dcol s.state) (p.start + p.dur + 1)) (u (k + 1)) := by rw [h1]; rfl
      rwa [hcol] at this
    have hbefore : ∀ q ∈ p :: r, q.start + q.dur < s.start := by
      intro q hq
      rcases List.mem_cons.1 hq with rfl | hq
      · omega
      · have := ih2 q hq
        omega
    refine ⟨?_, hbefore, ?_⟩
    · intro q hq
      rcases List.mem_cons.1 hq with rfl | hq
      · refine ⟨hj, fun ho => hb _ ho _ (p.start + p.dur + 1) ?_⟩
        rw [hd]
        exact ne_of_gt (pick_pos (m.D - 1) (fun d => m.ds d q.state (p.start + p.dur + 1)) (fun d => hm.ds0 d _ _) (hm.ds1 _ hj _).1 _ (hu _))
      · exact ih1 q hq
    · intro q hq t ht1 ht2
      rcases List.mem_cons.1 hq with rfl | hq
      · rw [now, if_pos ht1, max_eq_right (by omega)]
      · rw [now, if_neg (by have := hbefore q hq; omega)]
        exact ih3 q hq t ht1 ht2

/-- C98, bumps. Let a bump of an event model be drawn. `predict` stays in it for one time point more than the template is long;
to the first of them the last entry of the template is added, to every later one the entry that belongs to the time
point before. The claim is entry `t - start` at time `t` (as in the likelihood, hsmm.py 581-610); see `bump_wrong`. -/
theorem bump_late_partial (m : Tables ℝ) (hm : Stochastic m) (hh : m.hmp = true) (hsw : m.starts_with_first = true)
    (hS : 0 < m.n_S) (hb : BumpTable m) (e : Event) (he : e.template.length = m.event_width) (hr : e.rho = none) (u : ℕ → ℝ)
    (hu : ∀ k, u k ∈ Set.Ico (0 : ℝ) 1) (pos : ℕ) (q : Seg) (hq : q ∈ segs (later m) u pos) (ho : q.state % 2 = 1) (t : ℕ)
    (ht : t < m.n_T) (h1 : q.start ≤ t) (h2 : t ≤ q.start + q.dur) (k : ℕ) (noise : ℕ → ℕ → ℕ → ℝ) :
    q.dur = m.event_width ∧
    emission m e noise (sample m u pos).1 t k = noise t q.state k +
      (if t = q.start then e.template.getD (m.event_width - 1) 0 else e.template.getD (t - q.start - 1) 0) * e.mus t k q.state := by
  have hD : 0 < m.D := by
    by_contra h
    have := (hm.ds1 0 hS 0).1
    rw [show m.D - 1 = 0 by omega] at this
    simp at this
  have hbl : ∀ j, j % 2 = 1 → ∀ d t, (later m).ds d j t ≠ 0 → d + 1 = m.event_width + 1 := by
    intro j hj d t h
    cases d with
    | zero => exact absurd (later_ds_zero m j t) h
    | succ d => rw [later_ds] at h; rw [hb j hj d t h]
  obtain ⟨hd, _⟩ := (segs_eq_iff (later m) u pos _).1 rfl
  rw [sample_eq m u (fun k => (hu k).1) hD]
  generalize segs (later m) u pos = l at hd hq
  cases l with
  | nil => exact absurd hd id
  | cons s r =>
    have hm' := later_stochastic m hm hS
    have key := mem_draws { later m with event_width := m.event_width + 1 } ⟨hm'.1, hm'.2, hm'.3, hm'.4, hm'.5, hm'.6, hm'.7⟩ hsw hbl u hu pos r s (by
      have : ∀ (r : List Seg) (s : Seg), Draws (later m) u pos (s :: r) →
          Draws { later m with event_width := m.event_width + 1 } u pos (s :: r) := by
        intro r
        induction r with
        | nil => intro s h; exact h
        | cons p r ih => intro s h; exact ⟨h.1, ih p h.2⟩
      exact this r s hd)
    obtain ⟨k1, _, k3⟩ := key
    have hdur : q.dur = m.event_width := by
      have h : q.dur + 1 = m.event_width + 1 := (k1 q hq).2 ho
      omega
    refine ⟨hdur, ?_⟩
    have hnow := k3 q hq t h1 h2
    have hget : ((List.range m.n_T).map (now (s :: r))).getD t (0, 0) = (q.state, (q.start + q.dur : ℤ) - t) := by
      rw [List.getD_eq_getElem _ _ (by simpa using ht)]
      simpa using hnow
    unfold emission added
    simp only [hr, add_zero, hget]
    rw [if_pos ⟨hh, ho⟩]
    congr 1
    unfold ebump
    simp only [hr]
    congr 1
    unfold tmpl
    by_cases hts : t = q.start
    · have : ¬ (0 : ℤ) ≤ (e.template.length : ℤ) - 1 - ((q.start + q.dur : ℤ) - t) := by rw [he]; omega
      rw [if_neg this, if_pos hts]
      by_cases hw : e.template.length = 0
      · rw [if_neg (by rw [he] at hw ⊢; omega)]
        rw [List.length_eq_zero_iff.1 hw]
        rfl
      · rw [if_pos (by rw [he] at hw ⊢; omega)]
        congr 1
        rw [he] at hw ⊢
        omega
    · have : (0 : ℤ) ≤ (e.template.length : ℤ) - 1 - ((q.start + q.dur : ℤ) - t) := by rw [he]; omega
      rw [if_pos this, if_neg hts]
      congr 1
      rw [he]
      omega

/-- Flat, bump, flat; flats last one time point, the template has two entries. -/
noncomputable def bumps : Tables ℝ where
  n_T := 6
  D := 3
  n_S := 3
  event_width := 2
  starts_with_first := true
  ends_with_last := false
  ends_in_last := false
  hmp := true
  tvdtpi := false
  bs2 := fun _ _ => 1
  bs3 := fun _ _ _ => 1
  ds2 := fun d j => if d = j % 2 then 1 else 0
  ds3 := fun _ _ _ => 0
  T2 := fun i j => if j = (if i = 2 then 0 else i + 1) then 1 else 0
  T3 := fun _ _ _ => 0
  pi := fun j => if j = 0 then 1 else 0

theorem bumps_stochastic : Stochastic bumps where
  pi0 := by intro j; simp only [bumps]; split_ifs <;> norm_num
  pi1 := by simp [bumps, sum_range_succ]
  ds0 := by
    intro d c t
    show (0 : ℝ) ≤ if d = c % 2 then 1 else 0
    split_ifs <;> norm_num
  ds1 := by
    intro j _ t
    show ∑ d ∈ range 2, (if d = j % 2 then (1 : ℝ) else 0) = 1 ∧ ∑ d ∈ range 2, (if d = j % 2 then (1 : ℝ) else 0) = 1
    rw [sum_ite_eq', if_pos (by rw [mem_range]; omega)]
    exact ⟨rfl, rfl⟩
  T0 := by
    intro i j t
    show (0 : ℝ) ≤ if j = (if i = 2 then 0 else i + 1) then 1 else 0
    by_cases h : j = (if i = 2 then 0 else i + 1)
    · rw [if_pos h]; norm_num
    · rw [if_neg h]
  T1 := by
    intro i hi t
    show ∑ j ∈ range 3, (if j = (if i = 2 then 0 else i + 1) then (1 : ℝ) else 0) = 1
    have : i < 3 := hi
    rw [sum_ite_eq', if_pos]
    rw [mem_range]
    split_ifs <;> omega
  Tdiag := by
    intro i t
    show (if i = (if i = 2 then 0 else i + 1) then (1 : ℝ) else 0) = 0
    apply if_neg
    split_ifs <;> omega

theorem bumps_table : BumpTable bumps := by
  intro j hj d t h
  have h : (if d = j % 2 then (1 : ℝ) else 0) ≠ 0 := h
  have : d = j % 2 := by
    by_contra hc
    exact h (if_neg hc)
  show d + 1 = 2
  omega

theorem bumps_sample (u : ℕ → ℝ) (hu : ∀ k, u k ∈ Set.Ico (0 : ℝ) 1) (pos : ℕ) :
    (sample bumps u pos).1 = [(0, 1), (0, 0), (1, 2), (1, 1), (1, 0), (2, 1)] := by
  have hp : pick bumps.n_S bumps.pi (u pos) = 0 :=
    pick_only _ _ 0 (by decide) (by simp [bumps]) (fun k hk => by simp [bumps, hk]) _ (hu _)
  have hd : ∀ c t x, x ∈ Set.Ico (0 : ℝ) 1 → pick (bumps.D - 1) (fun d => bumps.ds d c t) x = c % 2 := fun c t x hx =>
    pick_only _ _ (c % 2) (show c % 2 < 2 by omega) (if_pos rfl) (fun k hk => if_neg hk) _ hx
  have hT0 : ∀ t x, x ∈ Set.Ico (0 : ℝ) 1 → pick bumps.n_S (fun j => bumps.T 0 j t) x = 1 := fun t x hx =>
    pick_only _ _ 1 (by decide) (if_pos rfl) (fun k hk => if_neg (by simpa using hk)) _ hx
  have hT1 : ∀ t x, x ∈ Set.Ico (0 : ℝ) 1 → pick bumps.n_S (fun j => bumps.T 1 j t) x = 2 := fun t x hx =>
    pick_only _ _ 2 (by decide) (if_pos rfl) (fun k hk => if_neg (by simpa using hk)) _ hx
  have hc : ∀ j, bumps.dcol j = j := fun j => rfl
  unfold sample initial
  simp only [hp, hd _ _ _ (hu _)]
  show (walk bumps u 6 0 _).1 = _
  simp only [walk, top, hd _ _ _ (hu _), hT0 _ _ (hu _), hT1 _ _ (hu _), hc]
  norm_num
  have hn : bumps.n_S - 1 = 2 := rfl
  simp [hn, hT0 _ _ (hu _), hT1 _ _ (hu _)]

/-- C98 fails for bumps: whatever the random numbers, the bump of `bumps` starts at time 2 and is left at time 5. At time 2 the
template's last entry 3 is added in place of the first entry 2. With autocorrelation, the trace that the end of the bump leaves in the
next flat is added at time 4, inside the bump, and missing at time 5. -/
theorem bump_wrong (u : ℕ → ℝ) (hu : ∀ k, u k ∈ Set.Ico (0 : ℝ) 1) (pos : ℕ) :
    states bumps u pos = [0, 0, 1, 1, 1, 2] ∧
    added bumps ⟨[2, 3], fun _ _ _ => 1, none⟩ (sample bumps u pos).1 2 0 = 3 ∧
    (∀ r, added bumps ⟨[2, 3], fun _ _ _ => 1, some r⟩ (sample bumps u pos).1 4 0 = d0 r * 3 + d1 r * 2 + d1 r * 3) ∧
    ∀ r, added bumps ⟨[2, 3], fun _ _ _ => 1, some r⟩ (sample bumps u pos).1 5 0 = 0 := by
  have hh : bumps.hmp = true := rfl
  refine ⟨?_, ?_, ?_, ?_⟩
  · unfold states; rw [bumps_sample u hu]; rfl
  · rw [bumps_sample u hu]
    simp [added, ebump, tmpl, hh]
  · intro r
    rw [bumps_sample u hu]
    simp [added, ebump, tmpl, hh]
  · intro r
    rw [bumps_sample u hu]
    simp [added, ebump, tmpl, hh]

/-! ## Observations -/

/-- C98, observations. In a model without events the simulated observation is the one drawn for the simulated state, before the autocorrelation is
put back. -/
theorem emission_state (m : Tables ℝ) (hh : m.hmp = false) (e : Event) (noise : ℕ → ℕ → ℕ → ℝ) (u : ℕ → ℝ) (pos t k j : ℕ)
    (hj : (states m u pos)[t]? = some j) : emission m e noise (sample m u pos).1 t k = noise t j k := by
  unfold states at hj
  rw [List.getElem?_map] at hj
  cases hs : (sample m u pos).1[t]? with
  | none => rw [hs] at hj; cases hj
  | some c =>
    rw [hs] at hj
    have hj : c.1 = j := by simpa using hj
    have hg : (sample m u pos).1.getD t (0, 0) = c := by rw [List.getD_eq_getElem?_getD, hs]; rfl
    unfold emission added
    simp only [hg, hh, hj, Bool.false_eq_true, false_and, and_false, if_false]
    cases e.rho <;> simp

example (u : ℕ → ℝ) (hu : ∀ k, u k ∈ Set.Ico (0 : ℝ) 1) (e : Event) (noise : ℕ → ℕ → ℕ → ℝ) :
    emission turns e noise (sample turns u 0).1 1 0 = noise 1 0 0 :=
  emission_state turns rfl e noise u 0 1 0 0 (by rw [turns_states u hu]; rfl)

theorem lrhoi_det (n : ℕ) (r : ℝ) (hr : |r| < 1) : IsUnit (lrhoi n r).det := by
  have hp : 0 < 1 - r ^ 2 := by
    have := sq_lt_one_iff_abs_lt_one r |>.2 hr
    linarith
  rw [Matrix.det_of_upperTriangular, isUnit_iff_ne_zero, Finset.prod_ne_zero_iff]
  · intro i _
    unfold lrhoi d0
    rw [if_pos rfl]
    split_ifs
    · exact one_ne_zero
    · exact (div_pos one_pos (Real.sqrt_pos.2 hp)).ne'
  · intro i j hij
    have hij : (j : ℕ) < i := hij
    unfold lrhoi
    rw [if_neg (by rintro rfl; omega), if_neg (by omega)]

theorem lrhoi_mul (n : ℕ) (r : ℝ) (y : Fin n → ℝ) (t : Fin n) :
    ((lrhoi n r).transpose.mulVec y) t = (if (t : ℕ) = 0 then y t else d0 r * y t + d1 r * y ⟨t - 1, by omega⟩) := by
  simp only [Matrix.mulVec, dotProduct, Matrix.transpose_apply]
  rw [← Finset.add_sum_erase _ _ (Finset.mem_univ t)]
  split_ifs with h
  · rw [Finset.sum_eq_zero]
    · simp [lrhoi, h]
    · intro i hi
      unfold lrhoi
      rw [if_neg (Finset.ne_of_mem_erase hi), if_neg (by omega), zero_mul]
  · rw [Finset.sum_eq_single (⟨t - 1, by omega⟩ : Fin n)]
    · unfold lrhoi
      rw [if_pos rfl, if_neg h, if_neg (by simp [Fin.ext_iff]; omega), if_pos (by simp; omega)]
    · intro i hi hne
      have : (i : ℕ) ≠ t - 1 := fun h => hne (Fin.ext h)
      unfold lrhoi
      rw [if_neg (Finset.ne_of_mem_erase hi), if_neg (by omega), zero_mul]
    · intro hn
      exact absurd (Finset.mem_erase.2 ⟨by simp [Fin.ext_iff]; omega, Finset.mem_univ _⟩) hn

theorem arBack_solves (n : ℕ) (r : ℝ) (hr : |r| < 1) (e : Fin n → ℝ) : (lrhoi n r).transpose.mulVec (arBack n r e) = e := by
  unfold arBack
  rw [Matrix.mulVec_mulVec, ← Matrix.transpose_mul, Matrix.nonsing_inv_mul _ (lrhoi_det n r hr), Matrix.transpose_one, Matrix.one_mulVec]

/-- C98, autocorrelation. Simulated observations follow the autoregression: the first is drawn as it is, every later one is `rho` times the one before
plus a draw scaled by `sqrt(1 - rho**2)`. -/
theorem ar_back (n : ℕ) (r : ℝ) (hr : |r| < 1) (e : Fin n → ℝ) (t : Fin n) :
    ((t : ℕ) = 0 → arBack n r e t = e t) ∧
    ((t : ℕ) ≠ 0 → arBack n r e t = r * arBack n r e ⟨t - 1, by omega⟩ + Real.sqrt (1 - r ^ 2) * e t) := by
  have hp : 0 < 1 - r ^ 2 := by
    have := sq_lt_one_iff_abs_lt_one r |>.2 hr
    linarith
  have h := lrhoi_mul n r (arBack n r e) t
  rw [arBack_solves n r hr] at h
  refine ⟨fun h0 => by rw [h, if_pos h0], fun h0 => ?_⟩
  rw [if_neg h0] at h
  rw [h]
  unfold d0 d1
  have := (Real.sqrt_pos.2 hp).ne'
  field_simp
  ring

/-- C98, autocorrelation. What is added as `d0 * mean + d1 * mean before` to the draws comes out as the mean itself. -/
theorem ar_mean (n : ℕ) (r : ℝ) (hr : |r| < 1) (mu e : Fin n → ℝ) (t : Fin n) :
    arBack n r (fun s => e s + if (s : ℕ) = 0 then mu s else d0 r * mu s + d1 r * mu ⟨s - 1, by omega⟩) t = arBack n r e t + mu t := by
  have h : (fun s : Fin n => if (s : ℕ) = 0 then mu s else d0 r * mu s + d1 r * mu ⟨s - 1, by omega⟩) = (lrhoi n r).transpose.mulVec mu :=
    funext fun s => (lrhoi_mul n r mu s).symm
  have h2 : (fun s => e s + if (s : ℕ) = 0 then mu s else d0 r * mu s + d1 r * mu ⟨s - 1, by omega⟩) = e + (lrhoi n r).transpose.mulVec mu := by
    rw [← h]; rfl
  rw [h2]
  unfold arBack
  rw [Matrix.mulVec_add, Matrix.mulVec_mulVec, ← Matrix.transpose_mul, Matrix.mul_nonsing_inv _ (lrhoi_det n r hr), Matrix.transpose_one, Matrix.one_mulVec]
  rfl

example : arBack 2 (3 / 5) ![1, 5] 1 = 23 / 5 := by
  have h := (ar_back 2 (3 / 5) (by rw [abs_of_pos] <;> norm_num) ![1, 5] 1).2 (by norm_num)
  have h0 := (ar_back 2 (3 / 5) (by rw [abs_of_pos] <;> norm_num) ![1, 5] 0).1 rfl
  rw [h, show (⟨(1 : Fin 2) - 1, by norm_num⟩ : Fin 2) = 0 from rfl, h0, show (1 : ℝ) - (3 / 5) ^ 2 = (4 / 5) ^ 2 by norm_num, Real.sqrt_sq (by norm_num)]
  norm_num

/-! ## Several series -/

/-- C98 fails for several series: they are meant to be simulated independently, but with a seed (the default) all of them use the same
random numbers. Series with the same tables get the same states in every sample, whatever the seed. -/
theorem series_same_wrong {S : Type} (gen : S → ℕ → ℝ) (seed : S) (n : ℕ) (series : List (Tables ℝ)) (i j : ℕ)
    (hi : i < series.length) (hj : j < series.length) (h : series[i] = series[j]) :
    (predictStates gen seed n series)[i]? = (predictStates gen seed n series)[j]? := by
  unfold predictStates
  rw [List.getElem?_map, List.getElem?_map, List.getElem?_eq_getElem hi, List.getElem?_eq_getElem hj, h]

example : Stochastic turns ∧ turns.hmp = false ∧ 0 < turns.n_T ∧ 0 < turns.n_S := ⟨turns_stochastic, rfl, by decide, by decide⟩

example (u : ℕ → ℝ) (hu : ∀ k, u k ∈ Set.Ico (0 : ℝ) 1) (pos : ℕ) :
    ∃ q ∈ segs (later bumps) u pos, q.state % 2 = 1 ∧ q.start ≤ 2 ∧ 2 ≤ q.start + q.dur := by
  have hs := (sample_eq bumps u (fun k => (hu k).1) (by decide) pos).symm.trans (bumps_sample u hu pos)
  have h : now (segs (later bumps) u pos) 2 = (1, 2) := by
    have := congrArg (fun l => l.getD 2 (0, 0)) hs
    simpa [List.range_succ, show bumps.n_T = 6 from rfl] using this
  obtain ⟨q, hq, h1, h2⟩ := now_mem _ 2 (by rw [h]; decide)
  rw [h, Prod.mk.injEq] at h2
  exact ⟨q, hq, by omega, h1, by omega⟩

end Verif.HPred
