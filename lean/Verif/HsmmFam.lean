import Verif.HsmmFamLemmas2

/-!
Theorems on the class of hidden semi-Markov models.

C77: the tables computed from coefficients are probability distributions. C78: the gradient of the family is the
derivative of its log-likelihood, coefficient by coefficient, also with formulas shared between states.
-/

namespace Verif.HFam

open Hsmm Finset

/-! ### C77: probability tables -/

/-- Duration probabilities are positive and add up to one, for every state (column) and time point. -/
theorem durations_distribution (h : Model) (β : Coef) (hD : 2 ≤ h.D) (j t : ℕ) :
    (∀ d, 0 < (tables h β).ds d j t) ∧ ∑ d ∈ range (h.D - 1), (tables h β).ds d j t = 1 := by
  have key : ∀ r, (∀ d, 0 < dsAt h β j r d) ∧ ∑ d ∈ range (h.D - 1), dsAt h β j r d = 1 := by
    intro r
    have hp := norm_pos h β (by omega : 0 < h.D - 1) j r
    refine ⟨fun d => div_pos (Real.exp_pos _) hp, ?_⟩
    unfold dsAt
    rw [← sum_div]
    exact div_self hp.ne'
  have e : ∀ d, (tables h β).ds d j t = dsAt h β j (row h t) d := by
    intro d
    cases htv : h.tvdtpi <;> simp [Tables.ds, tables, row, htv]
  simp only [e]
  exact key _

theorem sum_tidx (n i : ℕ) (hi : i < n) (f : ℕ → ℝ) :
    ∑ j ∈ range n, (if j = i then 0 else f (tidx n i j)) = ∑ q ∈ range (n - 1), f q := by
  have hlen : (others n i).length = n - 1 := by
    unfold others
    have e : (List.range n).filter (fun x => decide (x ≠ i)) = (List.range n).erase i := by
      rw [List.Nodup.erase_eq_filter List.nodup_range]
      congr 1
      funext x
      by_cases hx : x = i <;> simp [hx]
    rw [e, List.length_erase_of_mem (List.mem_range.2 hi), List.length_range]
  have h1 : (others n i).map (tidx n i) = List.range (n - 1) := by
    apply List.ext_getElem
    · simp [hlen]
    · intro q h1 h2
      rw [List.getElem_map, List.getElem_range]
      apply tidx_of_others
      rw [List.getElem?_eq_getElem]
  rw [← sum_map_range, ← sum_map_range, ← h1, List.map_map]
  have h2 := sum_map_filter (List.range n) (fun x => decide (x ≠ i)) (fun j => f (tidx n i j))
  unfold others
  rw [show (f ∘ tidx n i) = fun j => f (tidx n i j) from rfl, h2]
  congr 1
  apply List.map_congr_left
  intro j _
  by_cases hj : j = i <;> simp [hj]

/-- Rows of the transition matrix: no self transitions, positive probabilities for all other states, sum one. -/
theorem transitions_distribution (h : Model) (β : Coef) (hf : h.fixed = none) (hS : 2 ≤ h.n_S) (i t : ℕ)
    (hi : i < h.n_S) :
    (tables h β).T i i t = 0 ∧ (∀ j < h.n_S, j ≠ i → 0 < (tables h β).T i j t) ∧
      ∑ j ∈ range h.n_S, (tables h β).T i j t = 1 := by
  have e : ∀ j, (tables h β).T i j t = TAt h β (row h t) i j := by
    intro j
    cases htv : h.tvdtpi <;> simp [Tables.T, tables, row, htv, hf]
  simp only [e]
  generalize row h t = r
  by_cases h2 : 2 < h.n_S
  · have hself : TAt h β r i i = 0 := by
      unfold TAt assign
      rw [if_pos h2]
      have : ((tjIdx h.n_S i).zip (mnRow (muT h β i r))).lookup i = none := by
        rw [List.lookup_eq_none_iff]
        intro p hp
        have h1 := (List.of_mem_zip hp).1
        have h3 := (List.mem_filter.1 h1).2
        have h4 : ¬ p.1 = i := by simpa only [decide_eq_true_eq] using h3
        exact bne_iff_ne.2 (Ne.symm h4)
      rw [this]; rfl
    refine ⟨hself, fun j hj hji => ?_, ?_⟩
    · rw [TAt_eq h β h2 r i j (Ne.symm hji) hj hi]
      exact Real.exp_pos _
    · have e2 : ∀ j ∈ range h.n_S, TAt h β r i j = if j = i then 0 else
          Lss.mnProb (muT h β i r) (tidx h.n_S i j) := by
        intro j hj
        by_cases hji : j = i
        · rw [if_pos hji, hji, hself]
        · rw [if_neg hji, TAt_eq h β h2 r i j (Ne.symm hji) (mem_range.1 hj) hi]
          rfl
      rw [sum_congr rfl e2, sum_tidx h.n_S i hi, show h.n_S - 1 = h.n_S - 2 + 1 by omega]
      exact (Lss.mn_probs (mus := muT h β i r) fun q => Real.exp_pos _).2
  · have hS2 : h.n_S = 2 := by omega
    unfold TAt
    simp only [hS2, lt_irrefl, if_false]
    rw [hS2] at hi
    have : i = 0 ∨ i = 1 := by omega
    rcases this with rfl | rfl
    · refine ⟨by simp, fun j hj hji => ?_, ?_⟩
      · have : j = 1 := by omega
        subst this; simp
      · rw [sum_range_succ, sum_range_one]; simp
    · refine ⟨by simp, fun j hj hji => ?_, ?_⟩
      · have : j = 0 := by omega
        subst this; simp
      · rw [sum_range_succ, sum_range_one]; simp

/-- The initial distribution. -/
theorem initial_distribution (h : Model) (β : Coef) (hf : h.fixed = none) (hS : 1 ≤ h.n_S) :
    (∀ j < h.n_S, 0 < (tables h β).pi j) ∧ ∑ j ∈ range h.n_S, (tables h β).pi j = 1 := by
  have e : ∀ j, (tables h β).pi j = piAt h β j := fun j => by simp [tables, hf]
  simp only [e]
  refine ⟨fun j hj => ?_, ?_⟩
  · rw [piAt_eq h β j hj]
    exact Real.exp_pos _
  · have e2 : ∀ j ∈ range h.n_S, piAt h β j = Lss.mnProb (muPi h β) j := fun j hj => by
      rw [piAt_eq h β j (mem_range.1 hj)]
      rfl
    rw [sum_congr rfl e2]
    have := (Lss.mn_probs (mus := muPi h β) fun q => Real.exp_pos _).2
    rwa [show h.n_S - 1 + 1 = h.n_S by omega] at this

/-- Events last exactly `event_width` samples. -/
theorem bump_point_mass (D ew : ℕ) (h1 : 1 ≤ ew) (h2 : ew ≤ D - 1) :
    ∃ v, bumpDs D ew = some v ∧ ∀ d < D - 1, v d = if d + 1 = ew then 1 else 0 := by
  refine ⟨_, by simp only [bumpDs]; rw [if_pos (by omega : ew - 1 < D - 1)], ?_⟩
  intro d _
  show (if d = ew - 1 then (1 : ℝ) else 0) / _ = _
  have hs : ∑ d' ∈ range (D - 1), (if d' = ew - 1 then (1 : ℝ) else 0) = 1 := by
    rw [sum_ite_eq' (range (D - 1)) (ew - 1) (fun _ => (1 : ℝ)), if_pos (mem_range.2 (by omega))]
  rw [hs, div_one]
  by_cases hd : d + 1 = ew
  · rw [if_pos hd, if_pos (by omega)]
  · rw [if_neg hd, if_neg (by omega)]

/-- With time-varying durations the durations of events are never right, apart from the trivial maximum duration:
either the assignment raises, or the column is NaN at some time point (as soon as there are two time points). -/
theorem bump_time_varying_wrong (n_T D ew : ℕ) (hD : 2 < D) (h1 : 1 ≤ ew) (h2 : ew ≤ D - 1) :
    bumpDsTv n_T D ew = none ∨ ∃ v t, bumpDsTv n_T D ew = some v ∧ t < n_T ∧ ∀ d, v d t = none := by
  unfold bumpDsTv
  dsimp only
  rw [if_pos (by omega : ew - 1 < D - 1)]
  by_cases hn : D - 1 = n_T
  · right
    rw [if_pos (Or.inl hn)]
    by_cases he : ew = 1
    · refine ⟨_, 1, rfl, by omega, fun d => ?_⟩
      simp [show ¬ D - 1 = 1 by omega, he]
    · refine ⟨_, 0, rfl, by omega, fun d => ?_⟩
      simp [show ¬ D - 1 = 1 by omega, show ¬ 0 = ew - 1 by omega]
  · left
    rw [if_neg]
    rintro (h3 | h3)
    · exact hn h3
    · omega

/-! ### C78: gradient of one series -/

/-- Fixed transition and initial probabilities are usable: non-negative, and some segmentation of the series has positive
weight. -/
def FixedOk (h : Model) (β : Coef) : Prop :=
  h.fixed.isSome → NonNeg (tables h β) ∧ ∃ l, Admissible (tables h β) l ∧ 0 < weight (tables h β) l

theorem Lam_ne_zero (h : Model) (β : Coef) (hT : 0 < h.n_T) (hS : 2 ≤ h.n_S) (hD : 2 ≤ h.D) (hfx : FixedOk h β) :
    ∀ t < h.n_T, Lam (tables h β) t ≠ 0 := by
  cases hf : h.fixed with
  | some f =>
    obtain ⟨hn, l, hl, hw⟩ := hfx (by rw [hf]; rfl)
    exact Lam_ne_zero_of_segmentation _ hn hT l hl hw
  | none =>
    intro t ht
    refine (Lam_pos_of_pos (tables h β) rfl hS (show 0 < h.D - 1 by omega) ?_ ?_ ?_ ?_ t ht).ne'
    · intro t j _
      exact Real.exp_pos _
    · intro d j t _ _
      exact (durations_distribution h β hD j t).1 d
    · intro i j t hi hj hij
      exact (transitions_distribution h β hf hS i t hi).2.1 j hj (Ne.symm hij)
    · intro j hj
      exact (initial_distribution h β hf (by omega)).1 j hj

theorem D_derivative (h : Model) (β : Coef) (hok : Ok h) (hT : 0 < h.n_T) (hS : 2 ≤ h.n_S) (hD : 2 ≤ h.D)
    (hfx : FixedOk h β) (k : Key) (hk : k ∈ allKeys h) (c : ℕ) (hc : c < h.p k)
    (htv : h.tvdtpi = true → ∀ par, k ≠ .ini par) :
    HasDerivAt (fun θ => seriesLlk h (upd β k c θ)) (D h β k c) (β k c) := by
  have hL := Lam_ne_zero h β hT hS hD hfx
  rw [D_eq h β k c hk]
  · exact llk_deriv h β k c hok hT (by omega) hc hL
  · intro g hg
    have hini : g.kind = .initial → h.tvdtpi = false := by
      intro hgk
      cases htv' : h.tvdtpi with
      | false => rfl
      | true =>
        exfalso
        cases k with
        | sh a b => rw [dirOf_em_zero h β _ c g hg (Or.inl ⟨_, _, rfl⟩)] at hgk; cases hgk
        | em a b d => rw [dirOf_em_zero h β _ c g hg (Or.inr ⟨_, _, _, rfl⟩)] at hgk; cases hgk
        | du a b =>
          simp only [colsOf, List.mem_singleton] at hg
          rw [hg] at hgk; cases hgk
        | tr a b =>
          simp only [colsOf, List.mem_singleton] at hg
          rw [hg] at hgk; cases hgk
        | ini a => exact htv htv' a rfl
    unfold entry
    cases hf : h.fixed with
    | none =>
      simp only [Option.isSome_none, Bool.false_eq_true, if_false]
      exact llkgrad_eq_gradDir _ g rfl hT (by show 0 < h.n_S; omega) (by show 0 < h.D - 1; omega) hL hini
    | some f =>
      simp only [Option.isSome_some, if_true]
      obtain ⟨hn, l, hl, hw⟩ := hfx (by rw [hf]; rfl)
      have hkind : g.kind = .emission ∨ g.kind = .duration := by
        obtain ⟨_, _, h3, h4⟩ := mem_allKeys h k hk
        cases k with
        | sh a b => exact Or.inl (dirOf_em_zero h β _ c g hg (Or.inl ⟨_, _, rfl⟩))
        | em a b d => exact Or.inl (dirOf_em_zero h β _ c g hg (Or.inr ⟨_, _, _, rfl⟩))
        | du a b =>
          simp only [colsOf, List.mem_singleton] at hg
          rw [hg]; exact Or.inr rfl
        | tr a b =>
          have := (h3 a b rfl).1
          rw [hf] at this
          cases this
        | ini a =>
          have := (h4 a rfl).1
          rw [hf] at this
          cases this
      rw [llkFTPgrad_eq_llkgrad (tables h β) (toFtp g) g rfl rfl (by
        rcases hkind with hk | hk <;> simp [toFtp, hk]) rfl rfl rfl rfl hT (by show 0 < h.n_S; omega)
        (by show 0 < h.D - 1; omega) hn l hl hw]
      exact llkgrad_eq_gradDir _ g rfl hT (by show 0 < h.n_S; omega) (by show 0 < h.D - 1; omega) hL hini

/-! Positions in the coefficient vector. -/

theorem nodup_fm {α γ : Type} {l : List α} (hl : l.Nodup) (g : α → List γ) (hg : ∀ a, (g a).Nodup) (π : γ → α)
    (hπ : ∀ a, ∀ x ∈ g a, π x = a) : (l.flatMap g).Nodup := by
  induction l with
  | nil => simp
  | cons a l ih =>
    rw [List.nodup_cons] at hl
    rw [List.flatMap_cons, List.nodup_append]
    refine ⟨hg a, ih hl.2, ?_⟩
    intro x hx y hy hxy
    subst hxy
    obtain ⟨b, hb, hxb⟩ := List.mem_flatMap.1 hy
    have h1 := hπ a x hx
    have h2 := hπ b x hxb
    exact hl.1 (by rw [← h1, h2]; exact hb)

theorem allKeys_nodup (h : Model) : (allKeys h).Nodup := by
  have e1 : (sharedKeys h).Nodup := by
    refine nodup_fm List.nodup_range _ (fun par => ?_) (fun k => match k with | .sh par _ => par | _ => 0) ?_
    · exact List.Nodup.map (fun a b e => by injection e) List.nodup_range
    · intro par x hx
      obtain ⟨m, _, rfl⟩ := List.mem_map.1 hx
      rfl
  have e2 : (emBlocks h).Nodup := by
    refine nodup_fm List.nodup_range _ (fun j => ?_) (fun b => b.1) ?_
    · refine nodup_fm List.nodup_range _ (fun m => ?_) (fun b => b.2.1) ?_
      · exact List.Nodup.map (fun a b e => by simpa using e) List.nodup_range
      · intro m x hx
        obtain ⟨_, _, rfl⟩ := List.mem_map.1 hx
        rfl
    · intro j x hx
      obtain ⟨m, _, hx⟩ := List.mem_flatMap.1 hx
      obtain ⟨_, _, rfl⟩ := List.mem_map.1 hx
      rfl
  have e3 : (duBlocks h).Nodup := by
    refine nodup_fm List.nodup_range _ (fun j => ?_) (fun b => b.1) ?_
    · exact List.Nodup.map (fun a b e => by simpa using e) List.nodup_range
    · intro j x hx
      obtain ⟨_, _, rfl⟩ := List.mem_map.1 hx
      rfl
  have e4 : (trBlocks h).Nodup := by
    unfold trBlocks
    split_ifs
    · refine nodup_fm List.nodup_range _ (fun j => ?_) (fun b => b.1) ?_
      · exact List.Nodup.map (fun a b e => by simpa using e) List.nodup_range
      · intro j x hx
        obtain ⟨_, _, rfl⟩ := List.mem_map.1 hx
        rfl
    · exact List.nodup_nil
  have e5 : (piBlocks h).Nodup := by
    unfold piBlocks
    split_ifs
    · exact List.nodup_range
    · exact List.nodup_nil
  have hsh : ∀ k ∈ sharedKeys h, ∃ a b, k = .sh a b := by
    intro k hk
    unfold sharedKeys at hk
    simp only [List.mem_flatMap, List.mem_map] at hk
    obtain ⟨a, _, b, _, rfl⟩ := hk
    exact ⟨a, b, rfl⟩
  unfold allKeys
  refine List.nodup_append.2 ⟨List.nodup_append.2 ⟨List.nodup_append.2 ⟨List.nodup_append.2 ⟨e1, ?_, ?_⟩, ?_, ?_⟩,
    ?_, ?_⟩, ?_, ?_⟩
  · exact List.Nodup.map (fun a b e => by
      injection e with h1 h2 h3
      exact Prod.ext h1 (Prod.ext h2 h3)) e2
  · intro x hx y hy hxy
    obtain ⟨a, b, rfl⟩ := hsh x hx
    obtain ⟨b, _, rfl⟩ := List.mem_map.1 hy
    cases hxy
  · exact List.Nodup.map (fun a b e => by
      injection e with h1 h2
      exact Prod.ext h1 h2) e3
  · intro x hx y hy hxy
    obtain ⟨b, _, rfl⟩ := List.mem_map.1 hy
    rcases List.mem_append.1 hx with hx | hx
    · obtain ⟨a, b, rfl⟩ := hsh x hx
      cases hxy
    · obtain ⟨b, _, rfl⟩ := List.mem_map.1 hx
      cases hxy
  · exact List.Nodup.map (fun a b e => by
      injection e with h1 h2
      exact Prod.ext h1 h2) e4
  · intro x hx y hy hxy
    obtain ⟨b, _, rfl⟩ := List.mem_map.1 hy
    rcases List.mem_append.1 hx with hx | hx
    · rcases List.mem_append.1 hx with hx | hx
      · obtain ⟨a, b, rfl⟩ := hsh x hx
        cases hxy
      · obtain ⟨b, _, rfl⟩ := List.mem_map.1 hx
        cases hxy
    · obtain ⟨b, _, rfl⟩ := List.mem_map.1 hx
      cases hxy
  · exact List.Nodup.map (fun a b e => by injection e) e5
  · intro x hx y hy hxy
    obtain ⟨b, _, rfl⟩ := List.mem_map.1 hy
    rcases List.mem_append.1 hx with hx | hx
    · rcases List.mem_append.1 hx with hx | hx
      · rcases List.mem_append.1 hx with hx | hx
        · obtain ⟨a, b, rfl⟩ := hsh x hx
          cases hxy
        · obtain ⟨b, _, rfl⟩ := List.mem_map.1 hx
          cases hxy
      · obtain ⟨b, _, rfl⟩ := List.mem_map.1 hx
        cases hxy
    · obtain ⟨b, _, rfl⟩ := List.mem_map.1 hx
      cases hxy

theorem offs_cons_self (K : List Key) (p : Key → ℕ) (k : Key) : offs (k :: K) p k = 0 := by
  simp [offs]

theorem offs_cons_ne (K : List Key) (p : Key → ℕ) (k k' : Key) (hne : k' ≠ k) :
    offs (k' :: K) p k = p k' + offs K p k := by
  simp [offs, hne]

theorem flat_at (p : Key → ℕ) (f : Key → ℕ → ℝ) (K : List Key) (hK : K.Nodup) : ∀ n < (K.map p).sum,
    ∃ k ∈ K, ∃ c < p k, n = offs K p k + c ∧
      (K.flatMap fun k => (List.range (p k)).map (f k)).getD n 0 = f k c := by
  induction K with
  | nil => intro n hn; simp at hn
  | cons k K ih =>
    intro n hn
    rw [List.nodup_cons] at hK
    rw [List.map_cons, List.sum_cons] at hn
    by_cases hlt : n < p k
    · refine ⟨k, List.mem_cons_self, n, hlt, by rw [offs_cons_self, Nat.zero_add], ?_⟩
      rw [List.flatMap_cons, List.getD_eq_getElem?_getD, List.getElem?_append_left (by simpa using hlt),
        List.getElem?_map, List.getElem?_range hlt]
      rfl
    · obtain ⟨k', hk', c, hc, hn', hv⟩ := ih hK.2 (n - p k) (by omega)
      have hne : k ≠ k' := fun e => hK.1 (e ▸ hk')
      refine ⟨k', List.mem_cons_of_mem _ hk', c, hc, by rw [offs_cons_ne _ _ _ _ hne]; omega, ?_⟩
      rw [List.flatMap_cons, List.getD_eq_getElem?_getD, List.getElem?_append_right (by simpa using hlt),
        List.length_map, List.length_range, ← List.getD_eq_getElem?_getD]
      exact hv

theorem offs_inj (p : Key → ℕ) (K : List Key) : ∀ k ∈ K, ∀ k' ∈ K, ∀ c < p k, ∀ c' < p k',
    offs K p k + c = offs K p k' + c' → k = k' ∧ c = c' := by
  induction K with
  | nil => intro k hk; simp at hk
  | cons a K ih =>
    intro k hk k' hk' c hc c' hc' he
    by_cases h1 : a = k
    · by_cases h2 : a = k'
      · subst h1 h2
        exact ⟨rfl, by omega⟩
      · subst h1
        rw [offs_cons_self, offs_cons_ne _ _ _ _ h2] at he
        omega
    · by_cases h2 : a = k'
      · subst h2
        rw [offs_cons_self, offs_cons_ne _ _ _ _ h1] at he
        omega
      · rw [offs_cons_ne _ _ _ _ h1, offs_cons_ne _ _ _ _ h2] at he
        exact ih k ((List.mem_cons.1 hk).resolve_left (Ne.symm h1)) k' ((List.mem_cons.1 hk').resolve_left (Ne.symm h2))
          c hc c' hc' (by omega)

theorem flat_length (p : Key → ℕ) (f : Key → ℕ → ℝ) (K : List Key) :
    (K.flatMap fun k => (List.range (p k)).map (f k)).length = (K.map p).sum := by
  induction K with
  | nil => rfl
  | cons k K ih => rw [List.flatMap_cons, List.length_append, ih]; simp

theorem offs_lt (p : Key → ℕ) (k k' : Key) (A B : List Key) (hk : k ∉ A) (hk' : k' ∈ A) :
    offs (A ++ k :: B) p k' + p k' ≤ offs (A ++ k :: B) p k := by
  induction A with
  | nil => simp at hk'
  | cons a A ih =>
    have hak : a ≠ k := fun e => hk (e ▸ List.mem_cons_self)
    by_cases ha : a = k'
    · subst ha
      rw [List.cons_append, offs_cons_self, offs_cons_ne _ _ _ _ hak]
      omega
    · rw [List.cons_append, offs_cons_ne _ _ _ _ ha, offs_cons_ne _ _ _ _ hak]
      have := ih (fun e => hk (List.mem_cons_of_mem _ e)) ((List.mem_cons.1 hk').resolve_left (Ne.symm ha))
      omega

theorem split_update (h : Model) (coef : ℕ → ℝ) (k : Key) (hk : k ∈ allKeys h) (c : ℕ) (hc : c < h.p k) (θ : ℝ) :
    split h (Function.update coef (offset h k + c) θ) = upd (split h coef) k c θ := by
  funext k' c'
  unfold split splitBy upd
  dsimp only
  by_cases hin : k' ∈ allKeys h ∧ c' < h.p k'
  · rw [if_pos hin, if_pos hin]
    by_cases he : k' = k ∧ c' = c
    · rw [if_pos he, he.1, he.2]
      exact Function.update_self ..
    · rw [if_neg he, Function.update_of_ne]
      intro hoff
      exact he (offs_inj h.p (allKeys h) k' hin.1 k hk c' hin.2 c hc hoff)
  · rw [if_neg hin, if_neg hin, if_neg]
    rintro ⟨rfl, rfl⟩
    exact hin ⟨hk, hc⟩

/-- The gradient of one series has one entry per coefficient, and entry `n` is the derivative of the log-likelihood of the
series in coefficient `n`. Formulas shared between states (and signals) are included. What is missing: coefficients of
the initial distribution (those from `offset h (.ini 0)` on) of models with time-varying `T` and `pi`, for which the C++
code is wrong (`Hsmm.llkgrad_initial_time_varying_wrong`), autocorrelation, `MultiGauss` emissions. -/
theorem seriesGrad_hasDerivAt_partial (h : Model) (coef : ℕ → ℝ) (hok : Ok h) (hT : 0 < h.n_T) (hS : 2 ≤ h.n_S)
    (hD : 2 ≤ h.D) (hfx : FixedOk h (split h coef)) :
    (seriesGrad h (split h coef)).length = nCoef h ∧
      ∀ n < nCoef h, (h.tvdtpi = true → h.fixed = none → n < offset h (.ini 0)) →
        HasDerivAt (fun θ => seriesLlk h (split h (Function.update coef n θ)))
          ((seriesGrad h (split h coef)).getD n 0) (coef n) := by
  rw [seriesGrad_eq]
  refine ⟨flat_length _ _ _, fun n hn htv => ?_⟩
  obtain ⟨k, hk, c, hc, hnk, hv⟩ := flat_at h.p (D h (split h coef)) (allKeys h) (allKeys_nodup h) n hn
  rw [hv]
  have hnk' : n = offset h k + c := hnk
  have e0 : coef n = split h coef k c := by
    unfold split splitBy
    rw [if_pos ⟨hk, hc⟩, hnk']
    rfl
  have e1 : (fun θ => seriesLlk h (split h (Function.update coef n θ))) =
      fun θ => seriesLlk h (upd (split h coef) k c θ) := by
    funext θ
    rw [hnk', split_update h coef k hk c hc θ]
  rw [e1, e0]
  refine D_derivative h _ hok hT hS hD hfx k hk c hc ?_
  intro htv' par hkp
  subst hkp
  obtain ⟨_, _, _, h4⟩ := mem_allKeys h _ hk
  have hfn : h.fixed = none := Option.isNone_iff_eq_none.1 (h4 par rfl).1
  have hlt := htv htv' hfn
  rw [hnk'] at hlt
  -- `ini par` does not come before `ini 0`
  have hge : offset h (.ini 0) ≤ offset h (.ini par) := by
    by_cases hp0 : par = 0
    · rw [hp0]
    · have hpar : par < h.n_S - 1 := (h4 par rfl).2
      obtain ⟨q, rfl⟩ : ∃ q, par = q + 1 := ⟨par - 1, by omega⟩
      have hsplit : piBlocks h = List.range (q + 1) ++ (q + 1) :: List.range' (q + 2) (h.n_S - 1 - (q + 2)) := by
        unfold piBlocks
        rw [hfn, if_pos (by rfl), List.range_eq_range', List.range_eq_range']
        have : h.n_S - 1 = (q + 1) + ((h.n_S - 1 - (q + 2)) + 1) := by omega
        conv_lhs => rw [this]
        rw [← List.range'_append_1, Nat.zero_add]
        rfl
      have hall : ∃ A B, allKeys h = A ++ Key.ini (q + 1) :: B ∧ Key.ini 0 ∈ A ∧ Key.ini (q + 1) ∉ A := by
        refine ⟨sharedKeys h ++ (emBlocks h).map (fun b => .em b.1 b.2.1 b.2.2) ++ (duBlocks h).map (fun b => .du b.1 b.2) ++
          (trBlocks h).map (fun b => .tr b.1 b.2) ++ (List.range (q + 1)).map .ini,
          (List.range' (q + 2) (h.n_S - 1 - (q + 2))).map .ini, ?_, ?_, ?_⟩
        · unfold allKeys
          rw [hsplit]
          simp only [List.map_append, List.map_cons, List.append_assoc]
        · exact List.mem_append_right _ (List.mem_map.2 ⟨0, List.mem_range.2 (by omega), rfl⟩)
        · have hnd := allKeys_nodup h
          unfold allKeys at hnd
          rw [hsplit, List.map_append, List.map_cons, ← List.append_assoc] at hnd
          have := (List.nodup_append.1 hnd).2.2
          intro hmem
          exact this _ hmem _ List.mem_cons_self rfl
      obtain ⟨A, B, hAB, h0, h1⟩ := hall
      have := offs_lt h.p (Key.ini (q + 1)) (Key.ini 0) A B h1 h0
      rw [← hAB] at this
      exact le_trans (Nat.le_add_right _ _) this
  omega

/-! ### C78: several series -/

theorem famGrad_some (p : Key → ℕ) (K : List Key) (hs : List Model) (β : Coef)
    (hlen : ∀ h ∈ hs, (seriesGrad h β).length = (K.map p).sum) (hne : hs ≠ []) :
    ∃ g, famGrad hs β = some g ∧ g.length = (K.map p).sum ∧
      ∀ n < (K.map p).sum, g.getD n 0 = (hs.map fun h => (seriesGrad h β).getD n 0).sum := by
  have main : ∀ (hs : List Model) (a : List ℝ), (∀ h ∈ hs, (seriesGrad h β).length = (K.map p).sum) →
      a.length = (K.map p).sum → ∃ g, hs.foldl (fun a h => addGrad a (seriesGrad h β)) (some a) = some g ∧
        g.length = (K.map p).sum ∧
        ∀ n < (K.map p).sum, g.getD n 0 = a.getD n 0 + (hs.map fun h => (seriesGrad h β).getD n 0).sum := by
    intro hs
    induction hs with
    | nil => intro a _ ha; exact ⟨a, rfl, ha, fun n _ => by simp⟩
    | cons h hs ih =>
      intro a hl ha
      have hlh := hl h List.mem_cons_self
      obtain ⟨g, hg, hgl, hgv⟩ := ih (List.zipWith (· + ·) a (seriesGrad h β))
        (fun h' hh => hl h' (List.mem_cons_of_mem _ hh)) (by rw [List.length_zipWith, ha, hlh, Nat.min_self])
      refine ⟨g, hg, hgl, fun n hn => ?_⟩
      rw [hgv n hn, List.map_cons, List.sum_cons, ← add_assoc]
      congr 1
      simp only [List.getD_eq_getElem?_getD]
      rw [List.getElem?_zipWith, List.getElem?_eq_getElem (by rw [ha]; exact hn),
        List.getElem?_eq_getElem (by rw [hlh]; exact hn)]
      rfl
  cases hs with
  | nil => exact absurd rfl hne
  | cons h hs =>
    obtain ⟨g, hg, hgl, hgv⟩ := main hs (seriesGrad h β) (fun h' hh => hlen h' (List.mem_cons_of_mem _ hh))
      (hlen h List.mem_cons_self)
    exact ⟨g, hg, hgl, fun n hn => by rw [hgv n hn]; simp⟩

/-- `HSMMFamily.gradient` is the gradient of `HSMMFamily.llk`: for every non-empty list of series of the same family (same
formulas, hence same blocks of coefficients), every coefficient vector and every coefficient `n`. Missing: as for
`seriesGrad_hasDerivAt_partial`. -/
theorem famGrad_hasDerivAt_partial (p : Key → ℕ) (K : List Key) (hs : List Model) (hne : hs ≠ [])
    (hsame : ∀ h ∈ hs, h.p = p ∧ allKeys h = K) (coef : ℕ → ℝ)
    (hok : ∀ h ∈ hs, Ok h) (hT : ∀ h ∈ hs, 0 < h.n_T) (hS : ∀ h ∈ hs, 2 ≤ h.n_S)
    (hD : ∀ h ∈ hs, 2 ≤ h.D) (hfx : ∀ h ∈ hs, FixedOk h (splitBy K p coef)) :
    ∃ g, famGrad hs (splitBy K p coef) = some g ∧ g.length = (K.map p).sum ∧
      ∀ n < (K.map p).sum, (∀ h ∈ hs, h.tvdtpi = true → h.fixed = none → n < offset h (.ini 0)) →
        HasDerivAt (fun θ => famLlk hs (splitBy K p (Function.update coef n θ))) (g.getD n 0) (coef n) := by
  have hsp : ∀ h ∈ hs, split h = splitBy K p := fun h hh => by
    funext coef
    unfold split
    rw [(hsame h hh).1, (hsame h hh).2]
  have hser := fun h hh => seriesGrad_hasDerivAt_partial h coef (hok h hh) (hT h hh) (hS h hh) (hD h hh)
    (by rw [hsp h hh]; exact hfx h hh)
  have hn : ∀ h ∈ hs, nCoef h = (K.map p).sum := fun h hh => by
    unfold nCoef
    rw [(hsame h hh).1, (hsame h hh).2]
  obtain ⟨g, hg, hgl, hgv⟩ := famGrad_some p K hs (splitBy K p coef)
    (fun h hh => by
      have := (hser h hh).1
      rw [hsp h hh, hn h hh] at this
      exact this) hne
  refine ⟨g, hg, hgl, fun n hlt htv => ?_⟩
  rw [hgv n hlt]
  unfold famLlk
  clear hgv hg hgl hne
  induction hs with
  | nil => simpa using hasDerivAt_const _ _
  | cons h hs ih =>
    simp only [List.map_cons, List.sum_cons]
    have h1 := (hser h List.mem_cons_self).2 n (by rw [hn h List.mem_cons_self]; exact hlt)
      (htv h List.mem_cons_self)
    rw [hsp h List.mem_cons_self] at h1
    refine h1.add (ih (fun h' hh => hsame h' (List.mem_cons_of_mem _ hh))
      (fun h' hh => hok h' (List.mem_cons_of_mem _ hh)) (fun h' hh => hT h' (List.mem_cons_of_mem _ hh))
      (fun h' hh => hS h' (List.mem_cons_of_mem _ hh)) (fun h' hh => hD h' (List.mem_cons_of_mem _ hh))
      (fun h' hh => hfx h' (List.mem_cons_of_mem _ hh)) (fun h' hh => hsp h' (List.mem_cons_of_mem _ hh))
      (fun h' hh => hser h' (List.mem_cons_of_mem _ hh)) (fun h' hh => hn h' (List.mem_cons_of_mem _ hh))
      (fun h' hh => htv h' (List.mem_cons_of_mem _ hh)))

/-! ### Shared parameters -/

/-- The list of shared predictors can be built only if `shared_pars` is `[0, 1, ..., n - 1]`: any other list of distinct
parameters, such as `[1]` for sharing the second parameter alone, raises. -/
theorem buildShared_isSome_iff {α : Type} (f : ℕ → List α) (l : List ℕ) (hl : l.Nodup) :
    (buildShared f l).isSome ↔ l = List.range l.length := by
  have main : ∀ (r : List ℕ) (acc : List (List α)), (List.range acc.length ++ r).Nodup →
      ((r.foldlM (fun acc par =>
        let acc := acc ++ [[]]
        if par < acc.length then some (acc.modify par (· ++ f par)) else none) acc).isSome ↔
        r = List.range' acc.length r.length) := by
    intro r
    induction r with
    | nil => intro acc _; simp
    | cons a r ih =>
      intro acc hnd
      have ha : acc.length ≤ a := by
        by_contra hlt
        exact (List.nodup_append.1 hnd).2.2 a (List.mem_range.2 (by omega)) a List.mem_cons_self rfl
      rw [List.foldlM_cons, List.length_cons, List.range'_succ]
      by_cases hc : a = acc.length
      · have hlt : a < (acc ++ [[]]).length := by rw [List.length_append]; simp; omega
        dsimp only
        rw [if_pos hlt]
        have hlen : ((acc ++ [[]]).modify a (· ++ f a)).length = acc.length + 1 := by simp
        have := ih ((acc ++ [[]]).modify a (· ++ f a)) (by
          rw [hlen, List.range_succ, List.append_assoc, List.singleton_append, ← hc]
          rw [← hc] at hnd
          exact hnd)
        rw [hlen] at this
        refine Iff.trans this ?_
        rw [hc]
        simp
      · have hlt : ¬ a < (acc ++ [[]]).length := by rw [List.length_append]; simp; omega
        dsimp only
        rw [if_neg hlt]
        simp [hc]
  have := main l [] (by simpa using hl)
  rw [List.range_eq_range']
  exact this

example : buildShared (fun par => [par]) [1] = none := by decide
example : buildShared (fun par => [par]) [0, 1] = some [[0], [1]] := by decide

/-! ### A concrete family -/

/-- Gaussian observations with identity link for the mean and logarithmic link for the standard deviation. -/
noncomputable def gaussFam (y : ℕ → ℝ) : Fam where
  n_par := 2
  lp := fun i e => -((y i - e 0) / Real.exp (e 1)) ^ 2 / 2 - e 1 - Real.log (2 * Real.pi) / 2
  d1 := fun i e par => if par = 0 then (y i - e 0) / Real.exp (e 1) ^ 2 else ((y i - e 0) / Real.exp (e 1)) ^ 2 - 1

theorem gaussFam_ok (y : ℕ → ℝ) : (gaussFam y).Ok := by
  intro i e par hp
  have hp' : par < 2 := hp
  have hE : Real.exp (e 1) ≠ 0 := (Real.exp_pos _).ne'
  have : par = 0 ∨ par = 1 := by omega
  rcases this with rfl | rfl
  · have h1 : HasDerivAt (fun x : ℝ => -((y i - x) / Real.exp (e 1)) ^ 2 / 2 - e 1 - Real.log (2 * Real.pi) / 2)
        (-(2 * ((y i - e 0) / Real.exp (e 1)) ^ (2 - 1) * ((-1) / Real.exp (e 1))) / 2) (e 0) :=
      (((((hasDerivAt_id (e 0)).const_sub (y i)).div_const _).fun_pow 2).fun_neg.div_const 2 |>.sub_const _).sub_const _
    refine (h1.congr_deriv ?_).congr_of_eventuallyEq (Filter.Eventually.of_forall fun x => ?_)
    · simp only [gaussFam, if_true, show 2 - 1 = 1 from rfl, pow_one]
      field_simp
    · simp [gaussFam, Function.update]
  · have h1 : HasDerivAt (fun x : ℝ => -((y i - e 0) / Real.exp x) ^ 2 / 2 - x - Real.log (2 * Real.pi) / 2)
        (-(2 * ((y i - e 0) / Real.exp (e 1)) ^ (2 - 1) *
          ((0 * Real.exp (e 1) - (y i - e 0) * (Real.exp (e 1) * 1)) / Real.exp (e 1) ^ 2)) / 2 - 1) (e 1) :=
      ((((((hasDerivAt_const (e 1) (y i - e 0)).fun_div (hasDerivAt_id (e 1)).exp hE).fun_pow 2).fun_neg.div_const 2).fun_sub
        (hasDerivAt_id (e 1))).sub_const _)
    refine (h1.congr_deriv ?_).congr_of_eventuallyEq (Filter.Eventually.of_forall fun x => ?_)
    · simp only [gaussFam, one_ne_zero, if_false, show 2 - 1 = 1 from rfl, pow_one]
      field_simp
      ring
    · simp [gaussFam, Function.update]

/-- Three states, two Gaussian signals, the mean of every signal has a part shared by the states. -/
noncomputable def demo : Model where
  n_T := 4
  D := 3
  n_S := 3
  M := 2
  starts_with_first := true
  ends_with_last := false
  ends_in_last := false
  tvdtpi := false
  obs := fun _ m => gaussFam fun t => t + m
  dur := fun _ => gaussFam fun d => d + 1
  n_shared := 1
  shared_m := false
  fixed := none
  p := fun k => match k with
    | .sh _ _ => 3
    | .em _ _ _ => 2
    | _ => 1
  X := fun _ t c => (t : ℝ) ^ c

theorem demo_ok : Ok demo := ⟨fun _ _ _ _ => gaussFam_ok _, fun _ _ => gaussFam_ok _⟩

/-- 2 shared blocks of 3, 12 emission blocks of 2, 6 duration blocks, 3 transition blocks, 2 initial blocks. -/
example : nCoef demo = 41 := by
  simp [nCoef, allKeys, sharedKeys, emBlocks, duBlocks, trBlocks, piBlocks, demo, gaussFam, Model.nd, List.range_succ]

example (coef : ℕ → ℝ) : (seriesGrad demo (split demo coef)).length = nCoef demo ∧
    ∀ n < nCoef demo, HasDerivAt (fun θ => seriesLlk demo (split demo (Function.update coef n θ)))
      ((seriesGrad demo (split demo coef)).getD n 0) (coef n) := by
  obtain ⟨h1, h2⟩ := seriesGrad_hasDerivAt_partial demo coef demo_ok (by decide) (by decide) (by decide)
    (fun h => absurd h (by simp [demo]))
  exact ⟨h1, fun n hn => h2 n hn (fun h => absurd h (by simp [demo]))⟩

example (coef : ℕ → ℝ) : ∃ g, famGrad [demo, { demo with n_T := 7 }] (splitBy (allKeys demo) demo.p coef) = some g ∧
    ∀ n < nCoef demo, HasDerivAt (fun θ => famLlk [demo, { demo with n_T := 7 }]
      (splitBy (allKeys demo) demo.p (Function.update coef n θ))) (g.getD n 0) (coef n) := by
  obtain ⟨g, h1, _, h2⟩ := famGrad_hasDerivAt_partial demo.p (allKeys demo) [demo, { demo with n_T := 7 }] (by simp)
    (by intro h hh; simp only [List.mem_cons, List.not_mem_nil, or_false] at hh; rcases hh with rfl | rfl <;> exact ⟨rfl, rfl⟩)
    coef
    (by intro h hh; simp only [List.mem_cons, List.not_mem_nil, or_false] at hh; rcases hh with rfl | rfl <;> exact demo_ok)
    (by intro h hh; simp only [List.mem_cons, List.not_mem_nil, or_false] at hh; rcases hh with rfl | rfl <;> decide)
    (by intro h hh; simp only [List.mem_cons, List.not_mem_nil, or_false] at hh; rcases hh with rfl | rfl <;> decide)
    (by intro h hh; simp only [List.mem_cons, List.not_mem_nil, or_false] at hh; rcases hh with rfl | rfl <;> decide)
    (by
      intro h hh
      simp only [List.mem_cons, List.not_mem_nil, or_false] at hh
      rcases hh with rfl | rfl <;> exact fun h => absurd h (by simp [demo]))
  refine ⟨g, h1, fun n hn => h2 n hn ?_⟩
  intro h hh htv
  simp only [List.mem_cons, List.not_mem_nil, or_false] at hh
  rcases hh with rfl | rfl <;> exact absurd htv (by simp [demo])

/-- The tables of the example are distributions. -/
example (β : Coef) : ∑ j ∈ range 3, (tables demo β).T 1 j 2 = 1 ∧ ∑ d ∈ range 2, (tables demo β).ds d 2 0 = 1 ∧
    ∑ j ∈ range 3, (tables demo β).pi j = 1 :=
  ⟨(transitions_distribution demo β rfl (by decide) 1 2 (by decide)).2.2,
    (durations_distribution demo β (by decide) 2 0).2, (initial_distribution demo β rfl (by decide)).2⟩

example : ∃ v, bumpDs 6 5 = some v ∧ v 4 = 1 ∧ v 3 = 0 := by
  obtain ⟨v, h1, h2⟩ := bump_point_mass 6 5 (by decide) (by decide)
  exact ⟨v, h1, by rw [h2 4 (by decide)]; simp, by rw [h2 3 (by decide)]; simp⟩

example : bumpDsTv 100 6 5 = none := by simp [bumpDsTv]

/-! Fixed transitions: two alternating states. -/

noncomputable def demoFix : Model := { demo with
  n_S := 2
  fixed := some {
    T2 := fun i j => if i = j then 0 else 1
    T3 := fun i j _ => if i = j then 0 else 1
    pi := fun j => if j = 0 then 1 else 0 } }

theorem demoFix_fixed (β : Coef) : FixedOk demoFix β := by
  intro _
  have hds : ∀ d j t, 0 < (tables demoFix β).ds d j t := fun d j t =>
    (durations_distribution demoFix β (by decide) j t).1 d
  have hdsAt : ∀ j t d, 0 < dsAt demoFix β j t d := fun j t d =>
    div_pos (Real.exp_pos _) (norm_pos demoFix β (by decide) j t)
  refine ⟨⟨fun _ _ => (Real.exp_pos _).le, fun _ _ _ => le_refl _, fun d j => (hdsAt j 0 d).le,
    fun d j t => (hdsAt j t d).le, ?_, ?_, ?_⟩, [⟨2, 1, 1⟩, ⟨0, 1, 0⟩], ⟨⟨rfl, by decide, rfl⟩, ?_, ⟨2, 1, 1⟩, _, rfl,
      (by show 2 < 4; decide), (by show 4 ≤ 4; decide), ?_, ?_⟩, ?_⟩
  · intro i j
    show (0 : ℝ) ≤ if i = j then 0 else 1
    split_ifs <;> norm_num
  · intro i j _
    show (0 : ℝ) ≤ if i = j then 0 else 1
    split_ifs <;> norm_num
  · intro j
    show (0 : ℝ) ≤ if j = 0 then 1 else 0
    split_ifs <;> norm_num
  · intro s hs
    simp at hs
    rcases hs with rfl | rfl <;> simp [SegOk, tables, demoFix, demo]
  · exact fun _ => rfl
  · exact fun _ => rfl
  · have hobs : ∀ s, 0 < obsProd (tables demoFix β) 3 s := fun s => prod_pos fun t _ => by
      show (0 : ℝ) < bsAt demoFix β t s.state
      exact Real.exp_pos _
    have hT : (tables demoFix β).T 0 1 1 = 1 := by simp [Tables.T, tables, demoFix, demo]
    have hpi : (tables demoFix β).pi 0 = 1 := by simp [tables, demoFix]
    show 0 < (tables demoFix β).T 0 1 1 * (tables demoFix β).ds 1 _ 2 * obsProd (tables demoFix β) 3 _ *
      ((tables demoFix β).pi 0 * (tables demoFix β).ds 1 0 0 * obsProd (tables demoFix β) 3 _)
    rw [hT, hpi, one_mul, one_mul]
    exact mul_pos (mul_pos (hds _ _ _) (hobs _)) (mul_pos (hds _ _ _) (hobs _))

example (coef : ℕ → ℝ) (n : ℕ) (hn : n < nCoef demoFix) :
    HasDerivAt (fun θ => seriesLlk demoFix (split demoFix (Function.update coef n θ)))
      ((seriesGrad demoFix (split demoFix coef)).getD n 0) (coef n) :=
  (seriesGrad_hasDerivAt_partial demoFix coef ⟨fun _ _ _ _ => gaussFam_ok _, fun _ _ => gaussFam_ok _⟩ (by decide)
    (by decide) (by decide) (demoFix_fixed _)).2 n hn (fun h => absurd h (by simp [demoFix, demo]))

end Verif.HFam
