import Verif.HsmmRelFamModel
import Verif.HsmmRel

/-!
# The numbering of hidden states is arbitrary: `HSMMFamily` (property C128)
-/

namespace Verif.Relab
open Verif.Hsmm Verif.HFam Finset

/-! ### Tables that agree on the states -/

theorem llk_congr {m m' : Tables ℝ} (e1 : m'.n_T = m.n_T) (e2 : m'.D = m.D) (e3 : m'.n_S = m.n_S) (e4 : m'.event_width = m.event_width)
    (e5 : m'.ends_with_last = m.ends_with_last) (e6 : m'.ends_in_last = m.ends_in_last) (e7 : m'.hmp = m.hmp)
    (hb2 : ∀ t j, j < m.n_S → m'.bs2 t j = m.bs2 t j) (hb3 : ∀ t k j, j < m.n_S → m'.bs3 t k j = m.bs3 t k j)
    (hd : ∀ d t j, j < m.n_S → m'.ds d j t = m.ds d j t) (hc : ∀ d t j, j < m.n_S → m'.ds d (m'.dcol j) t = m.ds d (m.dcol j) t)
    (hT : ∀ i j t, i < m.n_S → j < m.n_S → i ≠ j → m'.T i j t = m.T i j t) (hp : ∀ j, j < m.n_S → m'.pi j = m.pi j) :
    llk m' = llk m := by
  have hcell : ∀ t (P P' : ℕ → ℕ → ℝ) L d j, (∀ d j, j < m.n_S → P' d j = P d j) → j < m.n_S →
      lamCell m' t P' L d j = lamCell m t P L d j := by
    intro t P P' L d j hP hj
    have hs : (∑ i ∈ range m.n_S, if i = j then 0 else P' 0 i * m'.T i j (t - 1)) =
        ∑ i ∈ range m.n_S, if i = j then 0 else P 0 i * m.T i j (t - 1) := by
      refine sum_congr rfl fun i hi => ?_
      split_ifs with hij
      · rfl
      · rw [hP 0 i (mem_range.1 hi), hT i j _ (mem_range.1 hi) hj hij]
    unfold lamCell
    rw [e1, e2, e3, e4, e5, e7, hs, hd d t j hj, hc d t j hj, hp j hj, hb2 t j hj, hP _ j hj]
    simp only [hb3 t _ j hj]
  have hsum : ∀ t (P P' : ℕ → ℕ → ℝ), (∀ d j, j < m.n_S → P' d j = P d j) → lamSum m' t P' = lamSum m t P := by
    intro t P P' hP
    unfold lamSum
    rw [e2, e3]
    refine sum_congr rfl fun d _ => sum_congr rfl fun j hj => ?_
    unfold lamContrib
    rw [e1, e3, e4, e5, e6, e7, hP d j (mem_range.1 hj)]
  have hlam : ∀ t d j, j < m.n_S → lam m' t d j = lam m t d j := by
    intro t
    induction t with
    | zero => exact fun d j hj => hcell 0 (fun _ _ => 0) (fun _ _ => 0) 0 d j (fun _ _ _ => rfl) hj
    | succ t ih =>
      intro d j hj
      show lamCell m' (t + 1) (lam m' t) (lamSum m' t (lam m' t)) d j = _
      rw [hsum t _ _ ih]
      exact hcell (t + 1) _ _ _ d j ih hj
  unfold llk
  rw [e1]
  exact sum_congr rfl fun t _ => congrArg Real.log (hsum t _ _ (hlam t))

/-! ### Multinomial rows -/

theorem lookup_zip {l : List ℕ} {v : List ℝ} (hl : l.Nodup) (i q : ℕ) (x : ℝ) (h1 : l[q]? = some i)
    (h2 : v[q]? = some x) : (l.zip v).lookup i = some x := by
  induction l generalizing v q with
  | nil => simp at h1
  | cons a l ih =>
    cases v with
    | nil => simp at h2
    | cons b v =>
      rw [List.nodup_cons] at hl
      cases q with
      | zero =>
        simp at h1 h2
        subst h1 h2
        simp
      | succ q =>
        simp only [List.getElem?_cons_succ] at h1 h2
        have hne : i ≠ a := by
          rintro rfl
          exact hl.1 (List.mem_of_getElem? h1)
        simp only [List.zip_cons_cons, List.lookup_cons]
        have : (i == a) = false := by simpa using hne
        rw [this]
        exact ih hl.2 q h1 h2

theorem tjIdx_eq {n i : ℕ} (hi : i < n) : tjIdx n i = (List.range (n - 1)).map (tgt i) := by
  obtain ⟨k, rfl⟩ : ∃ k, n = i + 1 + k := ⟨n - (i + 1), by omega⟩
  clear hi
  induction k with
  | zero =>
    show (List.range (i + 1)).filter _ = (List.range i).map _
    rw [List.range_succ, List.filter_append]
    have h1 : (List.range i).filter (fun x => decide (x ≠ i)) = List.range i := by
      rw [List.filter_eq_self]
      intro x hx
      rw [List.mem_range] at hx
      simpa using (by omega : x ≠ i)
    have h2 : (List.range i).map (tgt i) = List.range i := by
      conv_rhs => rw [← List.map_id (List.range i)]
      refine List.map_congr_left fun x hx => ?_
      rw [List.mem_range] at hx
      exact if_pos hx
    rw [h1, h2]
    simp
  | succ k ih =>
    have e : i + 1 + (k + 1) - 1 = (i + 1 + k - 1) + 1 := by omega
    rw [e, List.range_succ, List.map_append, ← ih]
    show (List.range (i + 1 + k + 1)).filter _ = _
    rw [List.range_succ, List.filter_append]
    have h3 : tgt i (i + k) = i + 1 + k := by unfold tgt; rw [if_neg (by omega)]; omega
    have h4 : i + 1 + k ≠ i := by omega
    simp [tjIdx, h3, h4]

theorem sum_tgt {n i : ℕ} (hi : i < n) (g : ℕ → ℝ) :
    (∑ k ∈ range n, if k = i then 0 else g k) = ∑ r ∈ range (n - 1), g (tgt i r) := by
  obtain ⟨k, rfl⟩ : ∃ k, n = i + 1 + k := ⟨n - (i + 1), by omega⟩
  clear hi
  induction k with
  | zero =>
    show ∑ k ∈ range (i + 1), _ = ∑ r ∈ range i, _
    rw [sum_range_succ, if_pos rfl, add_zero]
    refine sum_congr rfl fun x hx => ?_
    rw [mem_range] at hx
    rw [if_neg (by omega), tgt, if_pos hx]
  | succ k ih =>
    have e : i + 1 + (k + 1) - 1 = (i + 1 + k - 1) + 1 := by omega
    rw [e, sum_range_succ, ← ih]
    show ∑ k ∈ range (i + 1 + k + 1), _ = _
    rw [sum_range_succ, if_neg (by omega)]
    congr 2
    unfold tgt; rw [if_neg (by omega)]; omega

theorem tgt_pos {i k : ℕ} (h : k ≠ i) : tgt i (pos i k) = k := by unfold tgt pos; split_ifs <;> omega

theorem pos_lt {n i k : ℕ} (h : k ≠ i) (hk : k < n) (hi : i < n) : pos i k < n - 1 := by unfold pos; split_ifs <;> omega

theorem tgt_inj {i : ℕ} : Function.Injective (tgt i) := by
  intro a b h
  unfold tgt at h
  split_ifs at h <;> omega

/-- The list of probabilities with the reference written as predictor zero. -/
theorem mnRow_soft {K : ℕ} (e : ℕ → ℝ) (q : ℕ) (hq : q < K + 1) :
    (mnRow fun k : Fin K => Real.exp (e k))[q]? =
      some (Real.exp (if q = 0 then 0 else e (q - 1)) / ∑ r ∈ range (K + 1), Real.exp (if r = 0 then 0 else e (r - 1))) := by
  have hn : Lss.norm (fun k : Fin K => Real.exp (e k)) = ∑ r ∈ range (K + 1), Real.exp (if r = 0 then 0 else e (r - 1)) := by
    rw [sum_range_succ', if_pos rfl, Real.exp_zero]
    unfold Lss.norm
    rw [Fin.sum_univ_eq_sum_range (fun k => Real.exp (e k)) K]
    congr 1
  unfold mnRow
  rw [hn]
  cases q with
  | zero => simp
  | succ q =>
    have hq' : q < K := by omega
    simp only [List.getElem?_cons_succ]
    rw [List.getElem?_ofFn, dif_pos hq']
    simp

/-- Predictor of the transition from `i` to `k`. -/
noncomputable def Fe (h : Model) (β : Coef) (i k t : ℕ) : ℝ := if pos i k = 0 then 0 else eta h β (.tr i (pos i k - 1)) t

theorem TAt_soft (h : Model) (β : Coef) (hS : 2 < h.n_S) (t : ℕ) {i j : ℕ} (hi : i < h.n_S) (hj : j < h.n_S) (hij : i ≠ j) :
    TAt h β t i j = Real.exp (Fe h β i j t) / ∑ k ∈ range h.n_S, if k = i then 0 else Real.exp (Fe h β i k t) := by
  have hq : pos i j < h.n_S - 2 + 1 := by have := pos_lt hij.symm hj hi; omega
  have h1 : (tjIdx h.n_S i)[pos i j]? = some j := by
    rw [tjIdx_eq hi, List.getElem?_map, List.getElem?_range (pos_lt hij.symm hj hi)]
    simp [tgt_pos hij.symm]
  have h2 := mnRow_soft (K := h.n_S - 2) (fun q => eta h β (.tr i q) t) (pos i j) hq
  have hl : ((tjIdx h.n_S i).zip (mnRow (muT h β i t))).lookup j = _ :=
    lookup_zip (List.Nodup.filter _ List.nodup_range) j _ _ h1 h2
  unfold TAt assign
  rw [if_pos hS, hl, sum_tgt hi, show h.n_S - 2 + 1 = h.n_S - 1 by omega]
  show Real.exp _ / _ = _
  congr 1
  refine sum_congr rfl fun r _ => ?_
  have : pos i (tgt i r) = r := tgt_inj (tgt_pos (by unfold tgt; split_ifs <;> omega))
  unfold Fe
  rw [this]

/-- Predictor of the start in `k`. -/
noncomputable def Fi (h : Model) (β : Coef) (k : ℕ) : ℝ := if k = 0 then 0 else eta h β (.ini (k - 1)) 0

theorem piAt_soft (h : Model) (β : Coef) {j : ℕ} (hj : j < h.n_S) :
    piAt h β j = Real.exp (Fi h β j) / ∑ k ∈ range h.n_S, Real.exp (Fi h β k) := by
  have h2 := mnRow_soft (K := h.n_S - 1) (fun q => eta h β (.ini q) 0) j (by omega)
  have h3 : (mnRow (muPi h β))[j]? = _ := h2
  unfold piAt
  rw [List.getD_eq_getElem?_getD, h3, show h.n_S - 1 + 1 = h.n_S by omega]
  rfl

/-- All formulas of the transitions out of a state have the same model matrix, and so have those of the initial distribution. -/
structure SameX (h : Model) : Prop where
  ptr : ∀ i q, i < h.n_S → q < h.n_S - 2 → h.p (.tr i q) = h.p (.tr i 0)
  Xtr : ∀ i q, i < h.n_S → q < h.n_S - 2 → h.X (.tr i q) = h.X (.tr i 0)
  pini : ∀ q, q < h.n_S - 1 → h.p (.ini q) = h.p (.ini 0)
  Xini : ∀ q, q < h.n_S - 1 → h.X (.ini q) = h.X (.ini 0)

section
variable {s : Equiv.Perm ℕ} {h : Model} {β : Coef}

theorem Fe_full (hx : SameX h) {i k : ℕ} (hi : i < h.n_S) (hk : k < h.n_S) (hik : k ≠ i) (t : ℕ) :
    Fe h β i k t = ∑ c ∈ range (h.p (.tr i 0)), h.X (.tr i 0) t c * full β i k c := by
  unfold Fe full
  by_cases h0 : pos i k = 0
  · simp only [if_pos h0, mul_zero, sum_const_zero]
  · have hq : pos i k - 1 < h.n_S - 2 := by have := pos_lt hik hk hi; omega
    simp only [if_neg h0]
    unfold eta
    rw [hx.ptr i _ hi hq, hx.Xtr i _ hi hq]

theorem Fi_full (hx : SameX h) {k : ℕ} (hk : k < h.n_S) :
    Fi h β k = ∑ c ∈ range (h.p (.ini 0)), h.X (.ini 0) 0 c * fullPi β k c := by
  unfold Fi fullPi
  by_cases h0 : k = 0
  · simp only [if_pos h0, mul_zero, sum_const_zero]
  · have hq : k - 1 < h.n_S - 1 := by omega
    simp only [if_neg h0]
    unfold eta
    rw [hx.pini _ hq, hx.Xini _ hq]

/-- The new predictors are the old ones up to a constant. -/
theorem Fe_relab (hb : ∀ j, s j < h.n_S ↔ j < h.n_S) (hx : SameX h) {i k : ℕ} (hi : i < h.n_S) (hk : k < h.n_S) (hik : k ≠ i)
    (hS : 2 < h.n_S) (t : ℕ) :
    Fe (relabM s h) (relabC s h.n_S β) (s i) (s k) t = Fe h β i k t - Fe h β i (s.symm (tgt (s i) 0)) t := by
  have hsi : s i < h.n_S := (hb i).2 hi
  have hsk : s k < h.n_S := (hb k).2 hk
  have hski : s k ≠ s i := s.injective.ne hik
  have hsb : ∀ j, j < h.n_S → s.symm j < h.n_S := fun j hj => by
    have := hb (s.symm j)
    rw [Equiv.apply_symm_apply] at this
    exact this.1 hj
  have ht0 : tgt (s i) 0 < h.n_S := by unfold tgt; split_ifs <;> omega
  have ht0' : s.symm (tgt (s i) 0) ≠ i := by
    intro hc
    have : tgt (s i) 0 = s i := by
      have := congrArg s hc
      rwa [Equiv.apply_symm_apply] at this
    unfold tgt at this; split_ifs at this <;> omega
  by_cases h0 : pos (s i) (s k) = 0
  · have : s.symm (tgt (s i) 0) = k := by rw [← h0, tgt_pos hski, Equiv.symm_apply_apply]
    rw [this, sub_self]
    unfold Fe; rw [if_pos h0]
  · have hpos := pos_lt hski hsk hsi
    have e1 : Fe (relabM s h) (relabC s h.n_S β) (s i) (s k) t =
        ∑ c ∈ range (h.p (.tr (s.symm (s i)) (pos (s i) (s k) - 1))), h.X (.tr (s.symm (s i)) (pos (s i) (s k) - 1)) t c *
          (full β (s.symm (s i)) (s.symm (tgt (s i) (pos (s i) (s k) - 1 + 1))) c - full β (s.symm (s i)) (s.symm (tgt (s i) 0)) c) := by
      unfold Fe; rw [if_neg h0]; rfl
    rw [e1, show pos (s i) (s k) - 1 + 1 = pos (s i) (s k) by omega, tgt_pos hski, Equiv.symm_apply_apply, Equiv.symm_apply_apply,
      hx.ptr i _ hi (by omega), hx.Xtr i _ hi (by omega), Fe_full hx hi hk hik, Fe_full hx hi (hsb _ ht0) ht0', ← sum_sub_distrib]
    exact sum_congr rfl fun c _ => by ring

theorem Fi_relab (hb : ∀ j, s j < h.n_S ↔ j < h.n_S) (hx : SameX h) {k : ℕ} (hk : k < h.n_S) :
    Fi (relabM s h) (relabC s h.n_S β) (s k) = Fi h β k - Fi h β (s.symm 0) := by
  have hsk : s k < h.n_S := (hb k).2 hk
  have h0' : s.symm 0 < h.n_S := by
    have := hb (s.symm 0)
    rw [Equiv.apply_symm_apply] at this
    exact this.1 (by omega)
  by_cases h0 : s k = 0
  · have : s.symm 0 = k := by rw [← h0, Equiv.symm_apply_apply]
    rw [this, sub_self]
    unfold Fi; rw [if_pos h0]
  · have e1 : Fi (relabM s h) (relabC s h.n_S β) (s k) =
        ∑ c ∈ range (h.p (.ini (s k - 1))), h.X (.ini (s k - 1)) 0 c * (fullPi β (s.symm (s k - 1 + 1)) c - fullPi β (s.symm 0) c) := by
      unfold Fi; rw [if_neg h0]; rfl
    rw [e1, show s k - 1 + 1 = s k by omega, Equiv.symm_apply_apply, hx.pini _ (by omega), hx.Xini _ (by omega), Fi_full hx hk,
      Fi_full hx h0', ← sum_sub_distrib]
    exact sum_congr rfl fun c _ => by ring

theorem TAt_relab (hb : ∀ j, s j < h.n_S ↔ j < h.n_S) (hx : SameX h) (t : ℕ) {i j : ℕ} (hi : i < h.n_S) (hj : j < h.n_S) (hij : i ≠ j) :
    TAt (relabM s h) (relabC s h.n_S β) t (s i) (s j) = TAt h β t i j := by
  by_cases hS : 2 < h.n_S
  · rw [TAt_soft (relabM s h) _ hS t ((hb i).2 hi) ((hb j).2 hj) (s.injective.ne hij), TAt_soft h β hS t hi hj hij]
    show _ / (∑ k ∈ range h.n_S, _) = _
    rw [sum_perm hb, Fe_relab hb hx hi hj hij.symm hS]
    have e : (∑ k ∈ range h.n_S, if s k = s i then 0 else Real.exp (Fe (relabM s h) (relabC s h.n_S β) (s i) (s k) t)) =
        Real.exp (-Fe h β i (s.symm (tgt (s i) 0)) t) * ∑ k ∈ range h.n_S, if k = i then 0 else Real.exp (Fe h β i k t) := by
      rw [mul_sum]
      refine sum_congr rfl fun k hk => ?_
      by_cases hki : k = i
      · rw [hki, if_pos rfl, if_pos rfl, mul_zero]
      · rw [if_neg (s.injective.ne hki), if_neg hki, Fe_relab hb hx hi (mem_range.1 hk) hki hS, ← Real.exp_add]
        congr 1; ring
    rw [e, sub_eq_neg_add, Real.exp_add, mul_div_mul_left _ _ (Real.exp_ne_zero _)]
  · have h1 := (hb i).2 hi
    have h2 := (hb j).2 hj
    have h3 : s i ≠ s j := s.injective.ne hij
    have hS' : ¬ 2 < (relabM s h).n_S := hS
    unfold TAt
    rw [if_neg hS, if_neg hS', if_pos (by omega), if_pos (by omega)]

theorem piAt_relab (hb : ∀ j, s j < h.n_S ↔ j < h.n_S) (hx : SameX h) {j : ℕ} (hj : j < h.n_S) :
    piAt (relabM s h) (relabC s h.n_S β) (s j) = piAt h β j := by
  rw [piAt_soft (relabM s h) _ ((hb j).2 hj), piAt_soft h β hj]
  show _ / (∑ k ∈ range h.n_S, _) = _
  rw [sum_perm hb, Fi_relab hb hx hj]
  have e : (∑ k ∈ range h.n_S, Real.exp (Fi (relabM s h) (relabC s h.n_S β) (s k))) =
      Real.exp (-Fi h β (s.symm 0)) * ∑ k ∈ range h.n_S, Real.exp (Fi h β k) := by
    rw [mul_sum]
    refine sum_congr rfl fun k hk => ?_
    rw [Fi_relab hb hx (mem_range.1 hk), ← Real.exp_add]
    congr 1; ring
  rw [e, sub_eq_neg_add, Real.exp_add, mul_div_mul_left _ _ (Real.exp_ne_zero _)]

/-- C128.  The log-likelihood `HSMMFamily` computes for a series does not change when the states are listed in another order, with their
families, formulas and coefficients, provided the coefficients of transitions and initial distribution are rewritten for the new reference
states.  So each way to list the states has coefficients of the same likelihood. -/
theorem seriesLlk_relab (hb : ∀ j, s j < h.n_S ↔ j < h.n_S) (hl : h.ends_in_last = true → s (h.n_S - 1) = h.n_S - 1)
    (hx : h.fixed = none → SameX h) : seriesLlk (relabM s h) (relabC s h.n_S β) = seriesLlk h β := by
  have hok : Ok s (tables h β) := ⟨hb, (fun h => by cases h), hl⟩
  have hsb : ∀ j, j < h.n_S → s.symm j < h.n_S := fun j hj => by
    have := hb (s.symm j)
    rw [Equiv.apply_symm_apply] at this
    exact this.1 hj
  unfold seriesLlk
  rw [← llk_relab hok]
  refine llk_congr rfl rfl rfl rfl rfl rfl rfl (fun t j _ => rfl) (fun t k j _ => rfl) (fun d t j _ => rfl) (fun d t j _ => rfl) ?_ ?_
  · intro i j t hi hj hij
    have hi' : i < h.n_S := hi
    have hj' : j < h.n_S := hj
    show (if h.tvdtpi then (tables (relabM s h) (relabC s h.n_S β)).T3 i j t else (tables (relabM s h) (relabC s h.n_S β)).T2 i j) =
      (if h.tvdtpi then (tables h β).T3 (s.symm i) (s.symm j) t else (tables h β).T2 (s.symm i) (s.symm j))
    cases hf : h.fixed with
    | some f =>
      have hf' : (relabM s h).fixed = some ⟨fun i j => f.T2 (s.symm i) (s.symm j), fun i j t => f.T3 (s.symm i) (s.symm j) t,
        fun j => f.pi (s.symm j)⟩ := by
        show h.fixed.map _ = _
        rw [hf]; rfl
      simp only [tables, hf, hf']
    | none =>
      have hf' : (relabM s h).fixed = none := by
        show h.fixed.map _ = _
        rw [hf]; rfl
      have key : ∀ t, TAt (relabM s h) (relabC s h.n_S β) t i j = TAt h β t (s.symm i) (s.symm j) := fun t => by
        have := TAt_relab (β := β) hb (hx hf) t (hsb i hi') (hsb j hj') (s.symm.injective.ne hij)
        rwa [Equiv.apply_symm_apply, Equiv.apply_symm_apply] at this
      simp only [tables, hf, hf', key]
  · intro j hj
    have hj' : j < h.n_S := hj
    show (tables (relabM s h) (relabC s h.n_S β)).pi j = (tables h β).pi (s.symm j)
    cases hf : h.fixed with
    | some f =>
      have hf' : (relabM s h).fixed = some ⟨fun i j => f.T2 (s.symm i) (s.symm j), fun i j t => f.T3 (s.symm i) (s.symm j) t,
        fun j => f.pi (s.symm j)⟩ := by
        show h.fixed.map _ = _
        rw [hf]; rfl
      simp only [tables, hf, hf']
    | none =>
      have hf' : (relabM s h).fixed = none := by
        show h.fixed.map _ = _
        rw [hf]; rfl
      have key : piAt (relabM s h) (relabC s h.n_S β) j = piAt h β (s.symm j) := by
        have := piAt_relab (β := β) hb (hx hf) (hsb j hj')
        rwa [Equiv.apply_symm_apply] at this
      simp only [tables, hf, hf', key]

/-- C128.  The same for the sum over all series of a data set. -/
theorem famLlk_relab {hs : List Model} {n : ℕ} (hn : ∀ h ∈ hs, h.n_S = n) (hb : ∀ j, s j < n ↔ j < n)
    (hl : ∀ h ∈ hs, h.ends_in_last = true → s (n - 1) = n - 1) (hx : ∀ h ∈ hs, h.fixed = none → SameX h) :
    famLlk (hs.map (relabM s)) (relabC s n β) = famLlk hs β := by
  unfold famLlk
  rw [List.map_map]
  congr 1
  refine List.map_congr_left fun h hh => ?_
  obtain rfl := hn h hh
  exact seriesLlk_relab hb (hl h hh) (hx h hh)

end

end Verif.Relab
