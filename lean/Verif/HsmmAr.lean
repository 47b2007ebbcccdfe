import Verif.HsmmArModel
import Mathlib.Probability.Distributions.Gaussian.Real

/-!
C79: log-likelihood of event models. For every admissible sequence of flats and events the emission tables give the
Gaussian density of the (whitened) signals around the (whitened) mean of that sequence; the reported log-likelihood
misses the log density of the signals by a multiple of the log-determinant of the whitening matrix.
-/

namespace Verif.Hsmm

open Finset

/-- Mean of signal `m` at time `t` for a sequence of segments (latest first): the event template, scaled by the mean of
the event at that time, inside of events and zero inside of flats. -/
def meanAt (e : EventArgs) (m : ℕ) : List Seg → ℕ → ℝ
  | [], _ => 0
  | s :: r, t =>
    if s.start ≤ t then (if s.state % 2 = 1 then e.template (t - s.start) * e.mu t m s.state else 0)
    else meanAt e m r t

/-- Mean of the AR(1)-whitened signal. -/
noncomputable def whiteMean (rho : Option ℝ) (μ : ℕ → ℝ) (t : ℕ) : ℝ :=
  match rho with
  | none => μ t
  | some r => if t = 0 then μ 0 else (μ t - r * μ (t - 1)) / Real.sqrt (1 - r ^ 2)

/-- Sequences of an event model: begin with a flat, events last `event_width` samples and are entered from flats, a later
flat follows the event with the preceding number. -/
def EventSeq (ew : ℕ) : List Seg → Prop
  | [] => True
  | [s] => s.state % 2 = 0
  | s :: p :: r => ((s.state % 2 = 1 ∧ s.dur + 1 = ew ∧ p.state % 2 = 0) ∨
      (s.state % 2 = 0 ∧ p.state % 2 = 1 ∧ s.state = p.state + 1)) ∧ EventSeq ew (p :: r)

/-- Probability of the sequence itself. -/
noncomputable def prior (m : Tables ℝ) : List Seg → ℝ
  | [] => 1
  | [s] => m.pi s.state * m.ds s.dur s.state 0
  | s :: p :: r => m.T p.state s.state (s.start - 1) * m.ds s.dur (m.dcol s.state) s.start * prior m (p :: r)

/-- Log density of all signals at time `t` given a sequence. -/
noncomputable def logDens (e : EventArgs) (l : List Seg) (t : ℕ) : ℝ :=
  ∑ m ∈ range e.M, ldWrapper e.hmp_code (e.y t m) (whiteMean e.rho (meanAt e m l) t) e.scale

theorem meanAt_lt (e : EventArgs) (m : ℕ) (s : Seg) (r : List Seg) (t : ℕ) (h : t < s.start) :
    meanAt e m (s :: r) t = meanAt e m r t := by
  simp only [meanAt]
  rw [if_neg (by omega)]

theorem meanAt_ge (e : EventArgs) (m : ℕ) (s : Seg) (r : List Seg) (t : ℕ) (h : s.start ≤ t) :
    meanAt e m (s :: r) t = if s.state % 2 = 1 then e.template (t - s.start) * e.mu t m s.state else 0 := by
  simp only [meanAt]
  rw [if_pos h]

theorem logDens_lt (e : EventArgs) (s : Seg) (r : List Seg) (t : ℕ) (h : t < s.start) :
    logDens e (s :: r) t = logDens e r t := by
  unfold logDens
  refine sum_congr rfl fun m _ => ?_
  have h1 : whiteMean e.rho (meanAt e m (s :: r)) t = whiteMean e.rho (meanAt e m r) t := by
    unfold whiteMean
    cases e.rho with
    | none => exact meanAt_lt e m s r t h
    | some q =>
      dsimp only
      rw [meanAt_lt e m s r t h, meanAt_lt e m s r (t - 1) (by omega), meanAt_lt e m s r 0 (by omega)]
  rw [h1]

theorem chained_start {s p : Seg} {r : List Seg} (hc : Chained (s :: p :: r)) : s.start = p.start + p.dur + 1 := hc.1

/-- The table entry used at time `t` of the latest segment. -/
theorem obs_eq (m : Tables ℝ) (e : EventArgs) (s : Seg) (r : List Seg) (hc : Chained (s :: r))
    (hev : EventSeq e.event_width (s :: r)) (hew : ∀ p ∈ (s :: r), p.state % 2 = 1 → p.dur + 1 = e.event_width) (t : ℕ)
    (h1 : s.start ≤ t) (h2 : t ≤ s.start + s.dur) :
    obs (eventTables m e e.mu) s t = Real.exp (logDens e (s :: r) t) := by
  have hflat : ∀ k ≤ 1, ∀ t j, j % 2 = 0 → (eventTables m e e.mu).bs3 t k j =
      Real.exp (∑ m ∈ range e.M, ldWrapper e.hmp_code (e.y t m) (eFlat e t m k j) e.scale) := by
    intro k hk t j hj
    show eventBs { e with mu := e.mu } t k j = _
    unfold eventBs
    rw [if_neg (by omega), if_pos hk]
  have hbump : ∀ k t j, j % 2 = 1 → (eventTables m e e.mu).bs3 t k j =
      Real.exp (∑ m ∈ range e.M, ldWrapper e.hmp_code (e.y t m) (eBump e t m k j) e.scale) := by
    intro k t j hj
    show eventBs { e with mu := e.mu } t k j = _
    unfold eventBs
    rw [if_pos hj]
  have hh : (eventTables m e e.mu).hmp = true := rfl
  have hw : (eventTables m e e.mu).event_width = e.event_width := rfl
  unfold obs
  rw [if_pos hh, hw]
  by_cases ht : t = s.start
  · rw [if_pos ht]
    subst ht
    by_cases h0 : s.start = 0
    · rw [if_pos h0]
      have hs : s.state % 2 = 0 := by
        cases r with
        | nil => exact hev
        | cons p r => exact absurd (chained_start hc) (by omega)
      rw [hflat 0 (by omega) _ _ hs]
      congr 1
      refine sum_congr rfl fun mm _ => ?_
      congr 1
      have hm : meanAt e mm (s :: r) s.start = 0 := by
        rw [meanAt_ge e mm s r _ le_rfl, if_neg (by omega)]
      unfold eFlat whiteMean
      rw [if_pos rfl]
      cases e.rho with
      | none => exact hm.symm
      | some q =>
        dsimp only
        rw [if_pos h0, ← h0, hm]
    · rw [if_neg h0]
      cases r with
      | nil => exact absurd (show s.start = 0 from hc) h0
      | cons p r =>
        have hst := chained_start hc
        have hprev : ∀ mm, meanAt e mm (s :: p :: r) (s.start - 1) =
            if p.state % 2 = 1 then e.template p.dur * e.mu (s.start - 1) mm p.state else 0 := by
          intro mm
          rw [meanAt_lt e mm s _ _ (by omega), meanAt_ge e mm p r _ (by omega)]
          rw [show s.start - 1 - p.start = p.dur by omega]
        rcases hev.1 with ⟨ho, hd, hp⟩ | ⟨hs, hp, hsp⟩
        · rw [if_neg (by omega), hbump 0 _ _ ho]
          congr 1
          refine sum_congr rfl fun mm _ => ?_
          congr 1
          have hm := meanAt_ge e mm s (p :: r) s.start le_rfl
          rw [if_pos ho, Nat.sub_self] at hm
          have hpv := hprev mm
          rw [if_neg (by omega)] at hpv
          unfold eBump whiteMean
          cases e.rho with
          | none => exact hm.symm
          | some q =>
            dsimp only
            rw [if_neg (by omega), if_neg h0, hm, hpv]
            ring
        · rw [if_pos hs, hflat 1 le_rfl _ _ hs]
          congr 1
          refine sum_congr rfl fun mm _ => ?_
          congr 1
          have hm := meanAt_ge e mm s (p :: r) s.start le_rfl
          rw [if_neg (by omega)] at hm
          have hpv := hprev mm
          have hpd := hew p (by simp) hp
          rw [if_pos hp] at hpv
          unfold eFlat whiteMean
          rw [if_neg one_ne_zero]
          cases e.rho with
          | none => exact hm.symm
          | some q =>
            dsimp only
            rw [if_pos (by omega : 0 < s.state), if_neg h0, hm, hpv, hsp, Nat.add_sub_cancel,
              show e.event_width - 1 = p.dur by omega]
            unfold lag
            rw [if_neg h0]
            ring
  · rw [if_neg ht]
    have hm : ∀ mm, ∀ u, s.start ≤ u → meanAt e mm (s :: r) u =
        if s.state % 2 = 1 then e.template (u - s.start) * e.mu u mm s.state else 0 :=
      fun mm u hu => meanAt_ge e mm s r u hu
    by_cases ho : s.state % 2 = 1
    · have hd := hew s (by simp) ho
      rw [if_pos ho, hbump _ _ _ ho]
      congr 1
      refine sum_congr rfl fun mm _ => ?_
      congr 1
      have e1 := hm mm t h1
      have e2 := hm mm (t - 1) (by omega)
      rw [if_pos ho] at e1 e2
      rw [show e.event_width - 1 - (s.start + s.dur - t) = t - s.start by omega]
      unfold eBump whiteMean
      cases e.rho with
      | none => exact e1.symm
      | some q =>
        dsimp only
        rw [if_pos (by omega : 0 < t - s.start), if_neg (by omega), e1, e2]
        unfold lag
        rw [if_neg (by omega), show t - s.start - 1 = t - 1 - s.start by omega]
        ring
    · rw [if_neg ho, hflat 0 (by omega) _ _ (by omega)]
      congr 1
      refine sum_congr rfl fun mm _ => ?_
      congr 1
      have e1 := hm mm t h1
      have e2 := hm mm (t - 1) (by omega)
      rw [if_neg ho] at e1 e2
      unfold eFlat whiteMean
      rw [if_pos rfl]
      cases e.rho with
      | none => exact e1.symm
      | some q =>
        dsimp only
        rw [if_neg (by omega), e1, e2]
        simp

/-- Events last `event_width` samples in every sequence of an event model. -/
theorem eventSeq_dur (ew : ℕ) : ∀ l : List Seg, EventSeq ew l → ∀ p ∈ l, p.state % 2 = 1 → p.dur + 1 = ew := by
  intro l
  induction l with
  | nil => intro _ p hp; simp at hp
  | cons s r ih =>
    intro hev p hp ho
    cases r with
    | nil =>
      rw [List.mem_singleton] at hp
      have : s.state % 2 = 0 := hev
      rw [hp] at ho
      omega
    | cons q r =>
      rcases List.mem_cons.1 hp with rfl | hp
      · rcases hev.1 with h1 | h1
        · exact h1.2.1
        · omega
      · exact ih hev.2 p hp ho

/-- For a sequence of an event model the weight is its own probability times the Gaussian (or exponential) densities of
the signals around the mean of the sequence. -/
theorem weightUpTo_event (m : Tables ℝ) (e : EventArgs) (tmax : ℕ) : ∀ (s : Seg) (r : List Seg), Chained (s :: r) →
    EventSeq e.event_width (s :: r) → s.start ≤ tmax →
    weightUpTo (eventTables m e e.mu) tmax (s :: r) = prior m (s :: r) *
      ∏ t ∈ range (min (s.start + s.dur) tmax + 1), Real.exp (logDens e (s :: r) t) := by
  intro s r
  induction r generalizing s with
  | nil =>
    intro hc hev hs
    have hs0 : s.start = 0 := hc
    have ho : obsProd (eventTables m e e.mu) tmax s =
        ∏ t ∈ range (min (s.start + s.dur) tmax + 1), Real.exp (logDens e [s] t) := by
      unfold obsProd
      rw [show Icc s.start (min (s.start + s.dur) tmax) = range (min (s.start + s.dur) tmax + 1) by
        ext t; simp only [mem_Icc, mem_range]; omega]
      refine prod_congr rfl fun t ht => ?_
      have := mem_range.1 ht
      exact obs_eq m e s [] hc hev (eventSeq_dur _ _ hev) t (by omega) (by omega)
    simp only [weightUpTo, prior]
    rw [ho]
    rfl
  | cons p r ih =>
    intro hc hev hs
    have hst := chained_start hc
    have hprev := ih p hc.2.2 hev.2 (by omega)
    have ho : obsProd (eventTables m e e.mu) tmax s =
        ∏ t ∈ Icc s.start (min (s.start + s.dur) tmax), Real.exp (logDens e (s :: p :: r) t) := by
      unfold obsProd
      refine prod_congr rfl fun t ht => ?_
      have := mem_Icc.1 ht
      exact obs_eq m e s (p :: r) hc hev (eventSeq_dur _ _ hev) t this.1 (by omega)
    have hp : ∏ t ∈ range (min (p.start + p.dur) tmax + 1), Real.exp (logDens e (p :: r) t) =
        ∏ t ∈ range s.start, Real.exp (logDens e (s :: p :: r) t) := by
      rw [show min (p.start + p.dur) tmax + 1 = s.start by omega]
      refine prod_congr rfl fun t ht => ?_
      rw [logDens_lt e s (p :: r) t (mem_range.1 ht)]
    have hsplit : ∏ t ∈ range (min (s.start + s.dur) tmax + 1), Real.exp (logDens e (s :: p :: r) t) =
        (∏ t ∈ range s.start, Real.exp (logDens e (s :: p :: r) t)) *
          ∏ t ∈ Icc s.start (min (s.start + s.dur) tmax), Real.exp (logDens e (s :: p :: r) t) := by
      rw [← prod_union]
      · congr 1
        ext t
        simp only [mem_union, mem_range, mem_Icc]
        omega
      · rw [disjoint_left]
        intro t h1 h2
        have := mem_range.1 h1
        have := mem_Icc.1 h2
        omega
    simp only [weightUpTo, prior]
    rw [ho, hprev, hp, hsplit]
    show m.T p.state s.state (s.start - 1) * m.ds s.dur (m.dcol s.state) s.start * _ * _ = _
    ring

/-- Tables of an event model: no start in an event, only the transitions of `EventSeq`, events last `event_width`. -/
structure EventTab (m : Tables ℝ) (ew : ℕ) : Prop where
  first : m.starts_with_first = true
  pi : ∀ j < m.n_S, j % 2 = 1 → m.pi j = 0
  T : ∀ i < m.n_S, ∀ j < m.n_S, ∀ t, m.T i j t ≠ 0 → (i % 2 = 0 ∧ j % 2 = 1) ∨ (i % 2 = 1 ∧ j = i + 1)
  ds : ∀ d, ∀ j < m.n_S, ∀ t, j % 2 = 1 → m.ds d j t ≠ 0 → d + 1 = ew

theorem eventSeq_of_prior (m : Tables ℝ) (ew : ℕ) (hm : EventTab m ew) : ∀ l : List Seg,
    (∀ s ∈ l, s.state < m.n_S) → prior m l ≠ 0 → EventSeq ew l := by
  intro l
  induction l with
  | nil => intro _ _; trivial
  | cons s r ih =>
    intro hok hp
    have hs := hok s (by simp)
    cases r with
    | nil =>
      have h1 : m.pi s.state ≠ 0 := left_ne_zero_of_mul hp
      show s.state % 2 = 0
      by_contra hc
      exact h1 (hm.pi _ hs (by omega))
    | cons p r =>
      simp only [prior] at hp
      have h3 := right_ne_zero_of_mul hp
      have h12 := left_ne_zero_of_mul hp
      have h1 := left_ne_zero_of_mul h12
      have h2 := right_ne_zero_of_mul h12
      refine ⟨?_, ih (fun q hq => hok q (List.mem_cons_of_mem _ hq)) h3⟩
      rcases hm.T _ (hok p (by simp)) _ hs _ h1 with ⟨ha, hb⟩ | ⟨ha, hb⟩
      · refine Or.inl ⟨hb, ?_, ha⟩
        have hcol : m.dcol s.state = s.state := by
          unfold Tables.dcol
          rw [hm.first]
          simp
        rw [hcol] at h2
        exact hm.ds _ _ hs _ hb h2
      · exact Or.inr ⟨by omega, ha, hb⟩

theorem prior_nonneg (m : Tables ℝ) (e : EventArgs) (hn : NonNeg (eventTables m e e.mu)) : ∀ l, 0 ≤ prior m l := by
  have hds : ∀ d j t, 0 ≤ m.ds d j t := by
    intro d j t
    unfold Tables.ds
    split_ifs
    · exact hn.ds3 d j t
    · exact hn.ds2 d j
  have hT : ∀ i j t, 0 ≤ m.T i j t := by
    intro i j t
    unfold Tables.T
    split_ifs
    · exact hn.T3 i j t
    · exact hn.T2 i j
  intro l
  induction l with
  | nil => exact zero_le_one
  | cons s r ih =>
    cases r with
    | nil => exact mul_nonneg (hn.pi _) (hds _ _ _)
    | cons p r => exact mul_nonneg (mul_nonneg (hT _ _ _) (hds _ _ _)) ih

theorem weightUpTo_prior_zero (m : Tables ℝ) (e : EventArgs) (tmax : ℕ) : ∀ l, prior m l = 0 →
    weightUpTo (eventTables m e e.mu) tmax l = 0 := by
  intro l
  induction l with
  | nil => intro h; simp [prior] at h
  | cons s r ih =>
    intro h
    cases r with
    | nil =>
      simp only [prior] at h
      show m.pi s.state * m.ds s.dur s.state 0 * _ = 0
      rw [h, zero_mul]
    | cons p r =>
      simp only [prior] at h
      show m.T p.state s.state (s.start - 1) * m.ds s.dur (m.dcol s.state) s.start * _ *
        weightUpTo (eventTables m e e.mu) tmax (p :: r) = 0
      rcases mul_eq_zero.1 h with h | h
      · rw [h, zero_mul, zero_mul]
      · rw [ih h, mul_zero]

/-- C79, all event models (with or without autocorrelation): the weight of an admissible sequence is its probability times
the product over time and signals of the densities around the whitened mean of the sequence. -/
theorem event_weight (m : Tables ℝ) (e : EventArgs) (hT : 0 < m.n_T) (hm : EventTab m e.event_width) (l : List Seg)
    (hl : Admissible (eventTables m e e.mu) l) :
    weight (eventTables m e e.mu) l = prior m l * Real.exp (∑ t ∈ range m.n_T, logDens e l t) := by
  by_cases hp : prior m l = 0
  · rw [hp, zero_mul]
    exact weightUpTo_prior_zero m e _ l hp
  · obtain ⟨hc, hok, s, r, rfl, h1, h2, _⟩ := hl
    have h1' : s.start < m.n_T := h1
    have h2' : m.n_T ≤ s.start + s.dur + 1 := h2
    have hw := weightUpTo_event m e (m.n_T - 1) s r hc (eventSeq_of_prior m _ hm _ (fun q hq => (hok q hq).1) hp) (by omega)
    have hn : (eventTables m e e.mu).n_T = m.n_T := rfl
    unfold weight
    rw [hn, hw, show min (s.start + s.dur) (m.n_T - 1) + 1 = m.n_T by omega, Real.exp_sum]

/-- C79 without autocorrelation: the log-likelihood of an event model with Gaussian errors is the log of the mixture, over
the admissible sequences, of the product of the normal densities of all samples of all signals. -/
theorem eventLlk_mixture (m : Tables ℝ) (e : EventArgs) (hT : 0 < m.n_T) (hm : EventTab m e.event_width)
    (hg : e.hmp_code = 2) (v : NNReal) (hv : e.scale = v) (hv0 : 0 < v) (hrho : e.rho = none)
    (hn : NonNeg (eventTables m e e.mu)) (l0 : List Seg) (hl0 : Admissible (eventTables m e e.mu) l0)
    (hp0 : 0 < prior m l0) :
    ∃ A : Finset (List Seg), (∀ l, l ∈ A ↔ Admissible (eventTables m e e.mu) l) ∧
      llk (eventTables m e e.mu) = Real.log (∑ l ∈ A, prior m l *
        ∏ t ∈ range m.n_T, ∏ i ∈ range e.M, ProbabilityTheory.gaussianPDFReal (meanAt e i l t) v (e.y t i)) := by
  obtain ⟨A, hA, hllk⟩ := llk_eq_log_sum_over_segmentations (eventTables m e e.mu) hn hT
  refine ⟨A, hA, ?_⟩
  have hpdf : ∀ l, Real.exp (∑ t ∈ range m.n_T, logDens e l t) =
      ∏ t ∈ range m.n_T, ∏ i ∈ range e.M, ProbabilityTheory.gaussianPDFReal (meanAt e i l t) v (e.y t i) := by
    intro l
    rw [Real.exp_sum]
    refine prod_congr rfl fun t _ => ?_
    unfold logDens
    rw [Real.exp_sum]
    refine prod_congr rfl fun i _ => ?_
    unfold ldWrapper whiteMean
    rw [hrho, hg, hv, if_neg (by norm_num)]
    unfold ProbabilityTheory.gaussianPDFReal
    have hvr : (0 : ℝ) < v := hv0
    have h1 : (0 : ℝ) < Real.sqrt (2 * Real.pi) := Real.sqrt_pos.2 (by positivity)
    have h2 : (0 : ℝ) < Real.sqrt v := Real.sqrt_pos.2 hvr
    dsimp only
    rw [Real.exp_sub, Real.exp_sub, Real.exp_log h1, Real.exp_log h2, div_pow, Real.sq_sqrt hvr.le,
      Real.sqrt_mul (show (0 : ℝ) ≤ 2 * Real.pi by positivity) (v : ℝ)]
    rw [show -((e.y t i - meanAt e i l t) ^ 2 / (v : ℝ) / 2) = -(e.y t i - meanAt e i l t) ^ 2 / (2 * v) by
      field_simp]
    generalize Real.exp (-(e.y t i - meanAt e i l t) ^ 2 / (2 * v)) = q
    rw [mul_inv, div_div, div_eq_mul_inv, mul_inv]
    ring
  have hwt : ∑ l ∈ A, weight (eventTables m e e.mu) l = ∑ l ∈ A, prior m l *
        ∏ t ∈ range m.n_T, ∏ i ∈ range e.M, ProbabilityTheory.gaussianPDFReal (meanAt e i l t) v (e.y t i) := by
    refine sum_congr rfl fun l hl => ?_
    rw [event_weight m e hT hm l ((hA l).1 hl), hpdf]
  rw [← hwt]
  apply hllk
  rw [sum_congr rfl fun l hl => event_weight m e hT hm l ((hA l).1 hl)]
  exact sum_pos' (fun l _ => mul_nonneg (prior_nonneg m e hn l) (Real.exp_pos _).le)
    ⟨l0, (hA l0).2 hl0, mul_pos hp0 (Real.exp_pos _)⟩

/-! ### Autocorrelation -/

theorem oneSeries_length (n : ℕ) : (oneSeries n).length = n := by simp [oneSeries]

theorem oneSeries_getD (n i : ℕ) (hi : i < n) : (oneSeries n).getD i false = decide (i = 0) := by
  unfold oneSeries
  rw [List.getD_eq_getElem?_getD, List.getElem?_map, List.getElem?_range hi]
  rfl

theorem oneSeries_count (n : ℕ) (hn : 0 < n) : (oneSeries n).countP (· = true) = 1 := by
  obtain ⟨k, rfl⟩ : ∃ k, n = k + 1 := ⟨n - 1, by omega⟩
  unfold oneSeries
  rw [List.range_succ_eq_map, List.map_cons, List.countP_cons, List.map_map]
  have : List.countP (fun x => decide (x = true)) ((List.range k).map ((fun i => decide (i = 0)) ∘ Nat.succ)) = 0 := by
    rw [List.countP_eq_zero]
    intro a ha
    obtain ⟨i, _, rfl⟩ := List.mem_map.1 ha
    simp
  rw [this]
  simp

theorem d0_one (ρ : ℝ) (n i : ℕ) (hi : i < n) :
    Ar1.d0 ρ (oneSeries n) i = if i = 0 then 1 else 1 / Real.sqrt (1 - ρ ^ 2) := by
  unfold Ar1.d0
  by_cases h : i = 0
  · rw [if_pos h, if_pos ((Ar1.mem_sid0 _ _).2 (by rw [oneSeries_getD n i hi]; simpa using h))]
  · rw [if_neg h, if_neg]
    intro hc
    have := (Ar1.mem_sid0 _ _).1 hc
    rw [oneSeries_getD n i hi] at this
    simp [h] at this

theorem d1_one (ρ : ℝ) (n i : ℕ) (hi : i + 1 < n) :
    Ar1.d1 ρ (oneSeries n) i = -ρ / Real.sqrt (1 - ρ ^ 2) := by
  unfold Ar1.d1
  rw [if_neg]
  intro hc
  have h0 : (oneSeries n).getD 0 false = true := by rw [oneSeries_getD n 0 (by omega)]; rfl
  have := (Ar1.mem_sid1 (oneSeries n) h0 i).1 hc
  rw [oneSeries_getD n (i + 1) hi] at this
  simp at this

/-- The recovered autocorrelation is the absolute value. -/
theorem recRho_eq (ρ : ℝ) (hρ : ρ ^ 2 < 1) (n : ℕ) (hn : 2 ≤ n) :
    recRho (Ar1.Lrhoi ρ (oneSeries n) 1 1) = |ρ| := by
  have hpos : 0 < 1 - ρ ^ 2 := by linarith
  unfold recRho Ar1.Lrhoi
  rw [if_pos rfl, d0_one ρ n 1 (by omega), if_neg one_ne_zero, one_div_one_div, Real.sq_sqrt hpos.le]
  rw [show -1 * (1 - ρ ^ 2 - 1) = ρ ^ 2 by ring, Real.sqrt_sq_eq_abs]

/-- For a negative autocorrelation the mean of the whitened signal is wrong inside of events: at every sample `k > 0` of an
event whose previous mean is not zero. -/
theorem negative_rho_wrong (n : ℕ) (hn : 2 ≤ n) (e : EventArgs) (ρ : ℝ) (hneg : ρ < 0) (hρ : ρ ^ 2 < 1) (s : Seg)
    (r : List Seg) (hs : s.state % 2 = 1) (m k : ℕ) (hk : 0 < k)
    (hμ : e.template (k - 1) * e.mu (s.start + k - 1) m s.state ≠ 0) :
    eBump (arArgs n e ρ) (s.start + k) m k s.state ≠ whiteMean (some ρ) (meanAt e m (s :: r)) (s.start + k) := by
  have hpos : 0 < 1 - ρ ^ 2 := by linarith
  have hsq : Real.sqrt (1 - ρ ^ 2) ≠ 0 := (Real.sqrt_pos.2 hpos).ne'
  have e1 := meanAt_ge e m s r (s.start + k) (by omega)
  have e2 := meanAt_ge e m s r (s.start + k - 1) (by omega)
  rw [if_pos hs] at e1 e2
  rw [show s.start + k - s.start = k by omega] at e1
  rw [show s.start + k - 1 - s.start = k - 1 by omega] at e2
  intro hc
  simp only [eBump, arArgs, whiteMean, recRho_eq ρ hρ n hn, sq_abs, if_pos hk, lag] at hc
  rw [if_neg (by omega : ¬ s.start + k = 0), if_neg (by omega : ¬ s.start + k = 0), e1, e2, abs_of_neg hneg] at hc
  field_simp at hc
  apply hμ
  have : ρ * (2 * (e.template (k - 1) * e.mu (s.start + k - 1) m s.state)) = 0 := by linarith
  rcases mul_eq_zero.1 this with h | h
  · exact absurd h hneg.ne
  · linarith

/-- Residual of signal `m` under a sequence. -/
def resid (n : ℕ) (e : EventArgs) (l : List Seg) (m : ℕ) : Fin (oneSeries n).length → ℝ :=
  fun t => e.y t m - meanAt e m l t

theorem whiten_eq (ρ : ℝ) (n : ℕ) (y : ℕ → ℝ) (t : ℕ) (ht : t < n) :
    whiten ρ n y t = if t = 0 then y 0 else (y t - ρ * y (t - 1)) / Real.sqrt (1 - ρ ^ 2) := by
  have h1 := Ar1.W_sum ρ (oneSeries n) ⟨t, by rw [oneSeries_length]; exact ht⟩ y
  have h2 : whiten ρ n y t = ∑ k : Fin (oneSeries n).length,
      Ar1.W ρ (oneSeries n) ⟨t, by rw [oneSeries_length]; exact ht⟩ k * y k := by
    have h3 : whiten ρ n y t = ∑ k ∈ range (oneSeries n).length, Ar1.Lrhoi ρ (oneSeries n) k t * y k := by
      rw [oneSeries_length]; rfl
    rw [h3, sum_range]
    rfl
  rw [h2, h1]
  dsimp only
  rw [d0_one ρ n t ht]
  by_cases h0 : t = 0
  · rw [if_pos h0, if_pos h0, if_pos h0, h0]; ring
  · rw [if_neg h0, if_neg h0, if_neg h0, d1_one ρ n (t - 1) (by omega)]
    ring

theorem llcDiag_eq (ρ : ℝ) (hρ : ρ ^ 2 < 1) (n : ℕ) : llcDiag ρ n = Ar1.llc ρ (oneSeries n) := by
  rcases Nat.eq_zero_or_pos n with rfl | hn
  · simp [llcDiag, Ar1.llc, oneSeries]
  · obtain ⟨k, rfl⟩ : ∃ k, n = k + 1 := ⟨n - 1, by omega⟩
    unfold llcDiag Ar1.llc
    rw [oneSeries_count _ hn, oneSeries_length, sum_range_succ']
    have h1 : ∀ i ∈ range k, (if Ar1.d0 ρ (oneSeries (k + 1)) (i + 1) ≠ 1 then
        Real.log (Ar1.d0 ρ (oneSeries (k + 1)) (i + 1)) else 0) = Real.log (1 / Real.sqrt (1 - ρ ^ 2)) := by
      intro i hi
      have hd := d0_one ρ (k + 1) (i + 1) (by have := mem_range.1 hi; omega)
      rw [if_neg (Nat.succ_ne_zero i)] at hd
      rw [hd]
      by_cases hc : 1 / Real.sqrt (1 - ρ ^ 2) = 1
      · rw [if_neg (not_not.2 hc), hc, Real.log_one]
      · rw [if_pos hc]
    rw [sum_congr rfl h1, d0_one ρ (k + 1) 0 (by omega)]
    simp

/-- With a non-negative autocorrelation the densities of a sequence are those of Gaussian AR(1) residuals, up to the
log-determinant. -/
theorem logDens_ar (n : ℕ) (hn : 2 ≤ n) (e : EventArgs) (ρ : ℝ) (h0 : 0 ≤ ρ) (hρ : ρ ^ 2 < 1) (hφ : 0 < e.scale)
    (hg : e.hmp_code = 2) (l : List Seg) :
    ∑ t ∈ range n, logDens (arArgs n e ρ) l t =
      ∑ m ∈ range e.M, (Ar1.arLlk ρ (oneSeries n) (resid n e l m) e.scale - Ar1.llc ρ (oneSeries n)) := by
  unfold logDens
  rw [sum_comm]
  refine sum_congr rfl fun m _ => ?_
  unfold Ar1.arLlk
  rw [add_sub_cancel_right]
  unfold Ar1.gaussLlk
  have hlen := oneSeries_length n
  rw [show ∑ t ∈ range n, ldWrapper (arArgs n e ρ).hmp_code ((arArgs n e ρ).y t m)
      (whiteMean (arArgs n e ρ).rho (meanAt (arArgs n e ρ) m l) t) (arArgs n e ρ).scale =
    ∑ t ∈ range (oneSeries n).length, ldWrapper (arArgs n e ρ).hmp_code ((arArgs n e ρ).y t m)
      (whiteMean (arArgs n e ρ).rho (meanAt (arArgs n e ρ) m l) t) (arArgs n e ρ).scale by rw [hlen],
    sum_range]
  refine sum_congr rfl fun t _ => ?_
  have ht : t.1 < n := lt_of_lt_of_eq t.2 hlen
  have hmean : meanAt (arArgs n e ρ) m l = meanAt e m l := by
    funext u
    induction l with
    | nil => rfl
    | cons s r ih =>
      simp only [meanAt]
      rw [ih]
      rfl
  have hres : (Ar1.W ρ (oneSeries n)).mulVec (resid n e l m) t =
      whiten ρ n (fun k => e.y k m) t - whiteMean (some ρ) (meanAt e m l) t := by
    have h1 := Ar1.W_sum ρ (oneSeries n) t (fun k => e.y k m - meanAt e m l k)
    have h2 : (Ar1.W ρ (oneSeries n)).mulVec (resid n e l m) t =
      ∑ k, Ar1.W ρ (oneSeries n) t k * (e.y k m - meanAt e m l k) := rfl
    rw [h2, h1, whiten_eq ρ n _ t ht, d0_one ρ n t ht]
    unfold whiteMean
    by_cases hz : t.1 = 0
    · simp only [hz, if_true]; ring
    · simp only [hz, if_false]
      rw [d1_one ρ n (t.1 - 1) (by omega)]
      ring
  rw [hres, hmean]
  have hrho : (arArgs n e ρ).rho = some ρ := by
    show some (recRho (Ar1.Lrhoi ρ (oneSeries n) 1 1)) = some ρ
    rw [recRho_eq ρ hρ n hn, abs_of_nonneg h0]
  rw [hrho]
  show ldWrapper e.hmp_code (whiten ρ n (fun k => e.y k m) t) _ e.scale = _
  unfold ldWrapper
  rw [hg, if_neg (by norm_num)]
  generalize whiten ρ n (fun k => e.y k m) t = z
  generalize whiteMean (some ρ) (meanAt e m l) t = μ
  have hs : Real.sqrt e.scale ^ 2 = e.scale := Real.sq_sqrt hφ.le
  have hpi : (0 : ℝ) < 2 * Real.pi := by positivity
  rw [div_pow, hs, Real.log_sqrt hpi.le, Real.log_sqrt hφ.le, Real.log_mul hpi.ne' hφ.ne']
  field_simp
  ring

/-- The log density of the observed signals under the event model with Gaussian AR(1) residuals (variance `scale` and
correlation `ρ ^ k` at lag `k`, see `Ar1.ar1_llk`): mixture over the sequences of flats and events. -/
noncomputable def trueLogDensity (m : Tables ℝ) (e : EventArgs) (ρ : ℝ) (A : Finset (List Seg)) : ℝ :=
  Real.log (∑ l ∈ A, prior m l *
    Real.exp (∑ i ∈ range e.M, Ar1.arLlk ρ (oneSeries m.n_T) (resid m.n_T e l i) e.scale))

/-- C79. The log-likelihood reported for one series of an event model with Gaussian AR(1) residuals is the log density of
the signals minus `(M + 1)` times the log-determinant of the whitening matrix. The log-determinant should be added `M`
times (once per signal) and cancel. -/
theorem eventLlkAr_offset (m : Tables ℝ) (e : EventArgs) (ρ : ℝ) (hT : 2 ≤ m.n_T) (hm : EventTab m e.event_width)
    (h0 : 0 ≤ ρ) (hρ : ρ ^ 2 < 1) (hφ : 0 < e.scale) (hg : e.hmp_code = 2)
    (hn : NonNeg (eventTables m (arArgs m.n_T e ρ) e.mu)) (l0 : List Seg)
    (hl0 : Admissible (eventTables m (arArgs m.n_T e ρ) e.mu) l0) (hp0 : 0 < prior m l0) :
    ∃ A : Finset (List Seg), (∀ l, l ∈ A ↔ Admissible (eventTables m (arArgs m.n_T e ρ) e.mu) l) ∧
      eventLlkAr m e ρ = trueLogDensity m e ρ A - (e.M + 1) * Ar1.llc ρ (oneSeries m.n_T) := by
  obtain ⟨A, hA, hllk⟩ := llk_eq_log_sum_over_segmentations (eventTables m (arArgs m.n_T e ρ) e.mu) hn
    (show 0 < m.n_T by omega)
  refine ⟨A, hA, ?_⟩
  have hwt : ∀ l ∈ A, weight (eventTables m (arArgs m.n_T e ρ) e.mu) l =
      (prior m l * Real.exp (∑ i ∈ range e.M, Ar1.arLlk ρ (oneSeries m.n_T) (resid m.n_T e l i) e.scale)) *
        Real.exp (-(e.M * Ar1.llc ρ (oneSeries m.n_T))) := by
    intro l hl
    have h1 := event_weight m (arArgs m.n_T e ρ) (by omega) hm l ((hA l).1 hl)
    rw [show (arArgs m.n_T e ρ).mu = e.mu from rfl] at h1
    rw [h1, logDens_ar m.n_T hT e ρ h0 hρ hφ hg l, mul_assoc, ← Real.exp_add, sum_sub_distrib, sum_const, card_range,
      nsmul_eq_mul, sub_eq_add_neg]
  have hsum : ∑ l ∈ A, weight (eventTables m (arArgs m.n_T e ρ) e.mu) l = (∑ l ∈ A, prior m l *
      Real.exp (∑ i ∈ range e.M, Ar1.arLlk ρ (oneSeries m.n_T) (resid m.n_T e l i) e.scale)) *
        Real.exp (-(e.M * Ar1.llc ρ (oneSeries m.n_T))) := by
    rw [sum_mul]
    exact sum_congr rfl hwt
  have hpos : 0 < ∑ l ∈ A, prior m l *
      Real.exp (∑ i ∈ range e.M, Ar1.arLlk ρ (oneSeries m.n_T) (resid m.n_T e l i) e.scale) :=
    sum_pos' (fun l _ => mul_nonneg (prior_nonneg m _ hn l) (Real.exp_pos _).le)
      ⟨l0, (hA l0).2 hl0, mul_pos hp0 (Real.exp_pos _)⟩
  unfold eventLlkAr
  rw [hllk (by rw [hsum]; exact mul_pos hpos (Real.exp_pos _)), hsum, Real.log_mul hpos.ne' (Real.exp_pos _).ne',
    Real.log_exp, llcDiag_eq ρ hρ]
  unfold trueLogDensity
  ring

/-- The reported value is the log density only without autocorrelation. -/
theorem eventLlkAr_wrong (m : Tables ℝ) (e : EventArgs) (ρ : ℝ) (hT : 2 ≤ m.n_T) (hm : EventTab m e.event_width)
    (h0 : 0 < ρ) (hρ : ρ ^ 2 < 1) (hφ : 0 < e.scale) (hg : e.hmp_code = 2)
    (hn : NonNeg (eventTables m (arArgs m.n_T e ρ) e.mu)) (l0 : List Seg)
    (hl0 : Admissible (eventTables m (arArgs m.n_T e ρ) e.mu) l0) (hp0 : 0 < prior m l0) (A : Finset (List Seg))
    (hA : ∀ l, l ∈ A ↔ Admissible (eventTables m (arArgs m.n_T e ρ) e.mu) l) :
    eventLlkAr m e ρ < trueLogDensity m e ρ A := by
  obtain ⟨A', hA', h⟩ := eventLlkAr_offset m e ρ hT hm h0.le hρ hφ hg hn l0 hl0 hp0
  have : A' = A := by
    ext l
    rw [hA', hA]
  rw [this] at h
  have hllc : 0 < Ar1.llc ρ (oneSeries m.n_T) := by
    unfold Ar1.llc
    rw [oneSeries_count _ (by omega), oneSeries_length]
    have hpos : 0 < 1 - ρ ^ 2 := by linarith
    have hlt : Real.sqrt (1 - ρ ^ 2) < 1 := by
      rw [Real.sqrt_lt' one_pos]
      have : 0 < ρ ^ 2 := by positivity
      linarith
    have h2 : (2 : ℝ) ≤ m.n_T := by exact_mod_cast hT
    refine mul_pos (by push_cast; linarith) (Real.log_pos ?_)
    rw [lt_div_iff₀ (Real.sqrt_pos.2 hpos), one_mul]
    exact hlt
  have hM : (0 : ℝ) ≤ e.M := Nat.cast_nonneg _
  have : 0 < ((e.M : ℝ) + 1) * Ar1.llc ρ (oneSeries m.n_T) := mul_pos (by linarith) hllc
  linarith

/-! ### A case: three states (flat, event, flat), three samples, two signals -/

noncomputable def demoAr : Tables ℝ :=
  { demo with
    n_S := 3
    n_T := 4
    D := 5
    starts_with_first := true
    ends_with_last := false
    ends_in_last := true
    pi := fun j => if j = 0 then 1 else 0
    T2 := fun i j => if i + 1 = j then 1 else 0
    tvdtpi := false
    ds2 := fun d j => if j % 2 = 1 then (if d = 1 then 1 else 0) else 1 / 4 }

theorem demoAr_tab : EventTab demoAr 2 := by
  refine ⟨rfl, ?_, ?_, ?_⟩
  · intro j _ hj
    show (if j = 0 then (1 : ℝ) else 0) = 0
    rw [if_neg (by omega)]
  · intro i hi j hj t h
    have h' : (if i + 1 = j then (1 : ℝ) else 0) ≠ 0 := h
    have hij : i + 1 = j := by
      by_contra hc
      rw [if_neg hc] at h'
      exact h' rfl
    omega
  · intro d j hj t ho h
    have h' : (if j % 2 = 1 then (if d = 1 then (1 : ℝ) else 0) else 1 / 4) ≠ 0 := h
    rw [if_pos ho] at h'
    by_contra hc
    rw [if_neg (by omega)] at h'
    exact h' rfl

theorem demoAr_ok (e : EventArgs) (he : e.event_width = 2) : NonNeg (eventTables demoAr e e.mu) ∧
    Admissible (eventTables demoAr e e.mu) [⟨3, 1, 2⟩, ⟨1, 1, 1⟩, ⟨0, 0, 0⟩] ∧
      0 < prior demoAr [⟨3, 1, 2⟩, ⟨1, 1, 1⟩, ⟨0, 0, 0⟩] := by
  refine ⟨⟨?_, fun _ _ _ => eventBs_nonneg _ _ _ _, ?_, ?_, ?_, ?_, ?_⟩, ?_, ?_⟩
  any_goals (intros; simp [eventTables, demoAr, demo]; done)
  · intro d j
    simp only [eventTables, demoAr]
    split_ifs <;> norm_num
  · intro i j
    simp only [eventTables, demoAr]
    split_ifs <;> norm_num
  · intro j
    simp only [eventTables, demoAr]
    split_ifs <;> norm_num
  · refine ⟨⟨rfl, by decide, rfl, by decide, rfl⟩, ?_, ⟨3, 1, 2⟩, _, rfl, ?_, ?_, ?_, ?_⟩
    · intro s hs
      simp at hs
      rcases hs with rfl | rfl | rfl <;> simp [SegOk, eventTables, demoAr, demo, he]
    all_goals simp [eventTables, demoAr, demo]
  · simp [prior, demoAr, demo, Tables.T, Tables.ds, Tables.dcol]

/-- The offset is not zero for `ρ = 1/2`. -/
example (A : Finset (List Seg))
    (hA : ∀ l, l ∈ A ↔ Admissible (eventTables demoAr (arArgs 4 demoArgs (1 / 2)) demoArgs.mu) l) :
    eventLlkAr demoAr demoArgs (1 / 2) < trueLogDensity demoAr demoArgs (1 / 2) A :=
  eventLlkAr_wrong demoAr demoArgs (1 / 2) (by decide) demoAr_tab (by norm_num) (by norm_num)
    (by norm_num [demoArgs]) rfl (demoAr_ok (arArgs 4 demoArgs (1 / 2)) rfl).1 _
    (demoAr_ok (arArgs 4 demoArgs (1 / 2)) rfl).2.1 (demoAr_ok (arArgs 4 demoArgs (1 / 2)) rfl).2.2 A hA

/-- Second sample of an event that begins at time 1, template `1, 2`, mean 1, `ρ = -1/2`. -/
example : eBump (arArgs 4 { demoArgs with mu := fun _ _ _ => 1 } (-1 / 2)) 2 0 1 1 ≠
    whiteMean (some (-1 / 2)) (meanAt { demoArgs with mu := fun _ _ _ => 1 } 0 [⟨1, 1, 1⟩, ⟨0, 0, 0⟩]) 2 :=
  negative_rho_wrong 4 (by decide) _ (-1 / 2) (by norm_num) (by norm_num) ⟨1, 1, 1⟩ _ rfl 0 1 (by decide)
    (by norm_num [demoArgs])

/-- Mixture formula for the same model without autocorrelation. -/
example : ∃ A : Finset (List Seg),
    (∀ l, l ∈ A ↔ Admissible (eventTables demoAr { demoArgs with rho := none } demoArgs.mu) l) ∧
      llk (eventTables demoAr { demoArgs with rho := none } demoArgs.mu) = Real.log (∑ l ∈ A, prior demoAr l *
        ∏ t ∈ range 4, ∏ i ∈ range 2,
          ProbabilityTheory.gaussianPDFReal (meanAt { demoArgs with rho := none } i l t) 2 ((t : ℝ) + i)) :=
  eventLlk_mixture demoAr { demoArgs with rho := none } (by decide) demoAr_tab rfl 2 rfl (by norm_num) rfl
    (demoAr_ok { demoArgs with rho := none } rfl).1 _ (demoAr_ok { demoArgs with rho := none } rfl).2.1
    (demoAr_ok { demoArgs with rho := none } rfl).2.2

end Verif.Hsmm
