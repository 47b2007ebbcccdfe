import Verif.HsmmRelSeg
import Verif.Resid

/-!
# The numbering of hidden states is arbitrary: predictive residuals and decoding (property C128)
-/

namespace Verif.Relab
open Verif.Hsmm Finset

variable {s : Equiv.Perm ℕ} {m : Tables ℝ}

/-- The memory of the array `mus` with its last axis renumbered. -/
def MusRelab (s : Equiv.Perm ℕ) (n_T M n_S : ℕ) (mu mu' : ℕ → ℝ) : Prop :=
  ∀ t sig j, t < n_T → sig < M → j < n_S → musAt n_T M mu' t sig (s j) = musAt n_T M mu t sig j

/-- C128 with one signal.  Renumbering the states leaves the values that predictive residuals are computed from as they are, and hence the
residuals.  Missing for the full claim: several signals, see `predictive_wrong`. -/
theorem predictive_partial (h : Ok s m) {mu mu' : ℕ → ℝ} (hmu : MusRelab s m.n_T 1 m.n_S mu mu') :
    (∀ t, t < m.n_T → predE (relab s m) 1 0 mu' t = predE m 1 0 mu t) ∧
      ∀ (y : ℕ → ℝ) (t : ℕ), t < m.n_T →
        predResid (fun n => y n - predE (relab s m) 1 0 mu' n) t = predResid (fun n => y n - predE m 1 0 mu n) t := by
  have hE : ∀ t, t < m.n_T → predE (relab s m) 1 0 mu' t = predE m 1 0 mu t := by
    intro t ht
    have a1 : ∀ j, j < m.n_S → mu' (t + m.n_T * (0 + 1 * s j)) = mu (t + m.n_T * (0 + 1 * j)) := fun j hj =>
      hmu t 0 j ht one_pos hj
    have a2 : ∀ j, j < m.n_S → mu' (t + m.n_T * s j) = mu (t + m.n_T * j) := fun j hj => by
      have := a1 j hj
      rwa [zero_add, one_mul, zero_add, one_mul] at this
    cases t with
    | zero =>
      exact sbLam_relab h (fun d j hj => elamCell_relab h a1 a2 (prev := fun _ _ => 0) (prev' := fun _ _ => 0) (fun _ _ _ => rfl) 0 d hj) 0
    | succ t =>
      show sbLam (relab s m) (t + 1) (elamCell (relab s m) 1 0 mu' (t + 1) (fwdLam (relab s m) t)
        (sbLam (relab s m) t (fwdLam (relab s m) t))) = _
      rw [sbLam_relab h (fwdLam_relab h t)]
      exact sbLam_relab h (fun d j hj => elamCell_relab h a1 a2 (fwdLam_relab h t) _ d hj) (t + 1)
  refine ⟨hE, fun y t ht => ?_⟩
  have hc : ∀ n, n < m.n_T → cumResid (fun n => y n - predE (relab s m) 1 0 mu' n) n = cumResid (fun n => y n - predE m 1 0 mu n) n := by
    intro n
    induction n with
    | zero => intro hn; show y 0 - _ = y 0 - _; rw [hE 0 hn]
    | succ n ih => intro hn; show cumResid _ n + (y (n + 1) - _) = cumResid _ n + (y (n + 1) - _); rw [ih (by omega), hE _ hn]
  have hs : ∀ n, n < m.n_T → sdLoop (fun n => y n - predE (relab s m) 1 0 mu' n) n = sdLoop (fun n => y n - predE m 1 0 mu n) n := by
    intro n
    induction n with
    | zero => intro hn; simp only [sdLoop, hc 0 hn]
    | succ n ih => intro hn; simp only [sdLoop, hc _ hn, ih (by omega)]
  cases t with
  | zero => exact hc 0 ht
  | succ t => simp only [predResid, hc _ ht, hs _ ht]

/-- C128, negation with two signals: exchanging the two states of a model changes the value subtracted from the first signal, whose means are
all zero, from 1/4 to 0. -/
theorem predictive_wrong : ∃ (s : Equiv.Perm ℕ) (m : Tables ℝ) (mu mu' : ℕ → ℝ), Ok s m ∧ m.hmp = false ∧ 1 < m.n_T ∧
    MusRelab s m.n_T 2 m.n_S mu mu' ∧ predE m 2 0 mu 1 = 1 / 4 ∧ predE (relab s m) 2 0 mu' 1 = 0 := by
  set m : Tables ℝ := { tvDemo with ends_with_last := false } with hm
  have hb : BumpDur m := tvDemo_bump
  have hL0 : Lam m 0 = 1 := by
    simp [Lam, lam, lamSum, lamContrib, lamCell, hm, tvDemo, Tables.ds]
  have hS : m.n_S = 2 := rfl
  have hD : m.D = 3 := rfl
  have hN : m.n_T = 2 := rfl
  have e0 : Equiv.swap 0 1 0 = 1 := Equiv.swap_apply_left _ _
  have e1 : Equiv.swap 0 1 1 = 0 := Equiv.swap_apply_right _ _
  refine ⟨Equiv.swap 0 1, m, fun k => if k / 2 = 1 then 1 else 0, fun k => if k / 2 = 3 then 1 else 0, ⟨?_, ?_, ?_⟩, rfl, by decide, ?_, ?_, ?_⟩
  · intro j
    show _ < 2 ↔ j < 2
    rcases Nat.lt_or_ge j 2 with hj | hj
    · have : j = 0 ∨ j = 1 := by omega
      rcases this with rfl | rfl
      · rw [e0]; omega
      · rw [e1]; omega
    · rw [Equiv.swap_apply_of_ne_of_ne (by omega) (by omega)]
  · intro h; cases h
  · intro h; cases h
  · intro t sig j ht hs hj
    rw [hN] at ht
    rw [hS] at hj
    have h1 : t = 0 ∨ t = 1 := by omega
    have h2 : sig = 0 ∨ sig = 1 := by omega
    have h3 : j = 0 ∨ j = 1 := by omega
    rcases h1 with rfl | rfl <;> rcases h2 with rfl | rfl <;> rcases h3 with rfl | rfl <;> simp [musAt, hN, e0, e1]
  · have hf := fwdLam_eq m hb 0
    have hlam : ∀ d j, j < 2 → fwdLam m 0 d j = 1 / 4 := by
      intro d j hj
      rw [hf.1 d j hj]
      simp [lam, lamCell, hm, tvDemo, Tables.ds]
      norm_num
    simp only [predE]
    rw [hf.2, hL0]
    have hc : ∀ d j v, sbContrib m 1 d j v = v := by
      intro d j v
      simp [sbContrib, hm, tvDemo]
    have hcell : ∀ d j, d < 2 → j < 2 → elamCell m 2 0 (fun k => if k / 2 = 1 then 1 else 0) 1 (fwdLam m 0) 1 d j =
        if j = 1 then (if d = 0 then 1 / 16 else 3 / 16) else 0 := by
      intro d j hd hj
      have hd' : d = 0 ∨ d = 1 := by omega
      have hj' : j = 0 ∨ j = 1 := by omega
      simp only [elamCell, hS, hD, hN, Finset.sum_range_succ, Finset.sum_range_zero, hlam 0 0 (by omega), hlam 0 1 (by omega)]
      rcases hd' with rfl | rfl <;> rcases hj' with rfl | rfl <;>
        norm_num [hm, tvDemo, Tables.T, Tables.ds, Tables.dcol]
    unfold sbLam
    simp only [hS, hD, hc, Finset.sum_range_succ, Finset.sum_range_zero]
    norm_num [hcell 0 0 (by omega) (by omega), hcell 0 1 (by omega) (by omega), hcell 1 0 (by omega) (by omega),
      hcell 1 1 (by omega) (by omega)]
  · have hcell : ∀ prev L d j, j < 2 →
        elamCell (relab (Equiv.swap 0 1) m) 2 0 (fun k => if k / 2 = 3 then 1 else 0) 1 prev L d j = 0 := by
      intro prev L d j hj
      have hN' : (relab (Equiv.swap 0 1) m).n_T = 2 := rfl
      have hj' : j = 0 ∨ j = 1 := by omega
      simp only [elamCell, hN']
      rcases hj' with rfl | rfl <;> simp
    have hS' : (relab (Equiv.swap 0 1) m).n_S = 2 := rfl
    simp only [predE]
    unfold sbLam
    refine sum_eq_zero fun d _ => sum_eq_zero fun j hj => ?_
    rw [hS', mem_range] at hj
    rw [hcell _ _ _ _ hj]
    unfold sbContrib
    split_ifs <;> rfl

/-! ### Decoding -/

theorem relab_hmpOk {q : Tables (WithBot ℝ)} (h : Ok s q) (hq : HmpOk q) : HmpOk (relab s q) := by
  intro hh
  obtain ⟨hw, hd⟩ := hq hh
  have par : ∀ j, s.symm j % 2 = j % 2 := fun j => by
    have := h.par hh (s.symm j)
    rw [Equiv.apply_symm_apply] at this
    exact this.symm
  refine ⟨hw, fun d j t hdw hj => ⟨?_, ?_⟩⟩
  · have hc : col s q.n_S j % 2 = 1 := by
      unfold col
      split_ifs with hlt
      · rw [par]; exact hj
      · have := par (j - q.n_S); omega
    exact (hd d _ t hdw hc).1
  · have h2 := hd d (s.symm j) t hdw (by rw [par]; exact hj)
    cases hs : q.starts_with_first
    · have e : (relab s q).dcol j = s (s.symm j) + q.n_S := by
        rw [Equiv.apply_symm_apply]
        show (if q.starts_with_first = true then j else j + q.n_S) = _
        rw [hs, if_neg (by decide)]
      have e' : q.dcol (s.symm j) = s.symm j + q.n_S := by
        show (if q.starts_with_first = true then _ else _) = _
        rw [hs, if_neg (by decide)]
      rw [e]
      show (if q.tvdtpi then q.ds3 d (col s q.n_S (s (s.symm j) + q.n_S)) t else q.ds2 d (col s q.n_S (s (s.symm j) + q.n_S))) = ⊥
      rw [col_add, ← e']
      exact h2.2
    · have hc : col s q.n_S j % 2 = 1 := by
        unfold col
        split_ifs with hlt
        · rw [par]; exact hj
        · have := par (j - q.n_S); omega
      have e : (relab s q).dcol j = j := by
        show (if q.starts_with_first = true then j else j + q.n_S) = _
        rw [hs, if_pos rfl]
      rw [e]
      exact (hd d _ t hdw hc).1

/-- An allowed segmentation that no allowed segmentation beats. -/
def Best (q : Tables (WithBot ℝ)) (l : List Seg) : Prop :=
  Admissible q l ∧ ∀ l', Admissible q l' → logWeight q l' ≤ logWeight q l

theorem best_rename {q : Tables (WithBot ℝ)} (h : Ok s q) (l : List Seg) : Best (relab s q) (l.map (rename s)) ↔ Best q l := by
  have hw : ∀ l, Admissible q l → logWeight (relab s q) (l.map (rename s)) = logWeight q l := fun l hl =>
    logWeight_rename h _ l fun g hg => (hl.2.1 g hg).1
  constructor
  · rintro ⟨ha, hb⟩
    have ha' := (admissible_rename h l).1 ha
    refine ⟨ha', fun l' hl' => ?_⟩
    rw [← hw l ha', ← hw l' hl']
    exact hb _ ((admissible_rename h l').2 hl')
  · rintro ⟨ha, hb⟩
    refine ⟨(admissible_rename h l).2 ha, fun l' hl' => ?_⟩
    rw [← rename_inv (s := s) l'] at hl' ⊢
    have := (admissible_rename h _).1 hl'
    rw [hw l ha, hw _ this]
    exact hb _ this

/-- C128.  Whatever Viterbi decoding returns under the new numbering labels, with the states called by their old names, a segmentation that
is best under the old numbering; and if only one segmentation is best the result is the old one with its states renamed.  Ties may be broken
differently, see `ties_wrong`. -/
theorem viterbi_relab_partial {q : Tables (WithBot ℝ)} (h : Ok s q) (hq : HmpOk q) (hT : 0 < q.n_T)
    (hex : ∃ l, Admissible q l ∧ logWeight q l ≠ ⊥) :
    (∃ ed st best, viterbi (relab s q) = some (ed, st) ∧ Best q best ∧ Labels best q.n_T (st.map s.symm) ∧
        ∃ g r, best = g :: r ∧ g.start + g.dur + 1 = q.n_T + ed) ∧
      ((∀ l l', Best q l → Best q l' → l = l') →
        viterbi (relab s q) = (viterbi q).map fun r => (r.1, r.2.map s)) := by
  obtain ⟨l0, h0, hn0⟩ := hex
  have hex' : ∃ l, Admissible (relab s q) l ∧ logWeight (relab s q) l ≠ ⊥ := by
    refine ⟨l0.map (rename s), (admissible_rename h l0).2 h0, ?_⟩
    have : logWeight (relab s q) (l0.map (rename s)) = logWeight q l0 := logWeight_rename h _ l0 fun g hg => (h0.2.1 g hg).1
    rw [this]; exact hn0
  obtain ⟨ed', st', b', hv', ha', hl', ⟨g', r', hb', he'⟩, hm'⟩ := viterbi_optimal (relab s q) (relab_hmpOk h hq) hT hex'
  have hbest : Best q (b'.map (rename s.symm)) := by
    have : Best (relab s q) ((b'.map (rename s.symm)).map (rename s)) := by
      rw [rename_inv]; exact ⟨ha', hm'⟩
    exact (best_rename h _).1 this
  have hlab : Labels (b'.map (rename s.symm)) q.n_T (st'.map s.symm) := labels_rename hl'
  refine ⟨⟨ed', st', _, hv', hbest, hlab, rename s.symm g', r'.map (rename s.symm), by rw [hb']; rfl, he'⟩, fun huniq => ?_⟩
  obtain ⟨ed, st, b, hv, ha, hl, ⟨g, r, hb, he⟩, hm⟩ := viterbi_optimal q hq hT ⟨l0, h0, hn0⟩
  have e := huniq b _ ⟨ha, hm⟩ hbest
  rw [← e] at hlab
  have hst : st = st'.map s.symm := labels_unique ha.1 hl hlab
  have hst' : st' = st.map s := by
    rw [hst, List.map_map]
    conv_lhs => rw [← List.map_id st']
    exact List.map_congr_left fun x _ => by simp
  have hed : ed = ed' := by
    rw [hb, hb'] at e
    rw [List.map_cons, List.cons.injEq] at e
    have h1 := he
    rw [e.1] at h1
    have h2 : g'.start + g'.dur + 1 = q.n_T + ed := h1
    have h3 : g'.start + g'.dur + 1 = q.n_T + ed' := he'
    omega
  rw [hv, hv', hst', hed]; rfl

/-- One time point, two states between which nothing decides. -/
noncomputable def tie : Tables (WithBot ℝ) where
  n_T := 1
  D := 3
  n_S := 2
  event_width := 1
  starts_with_first := true
  ends_with_last := false
  ends_in_last := false
  hmp := false
  tvdtpi := false
  bs2 := fun _ _ => 0
  bs3 := fun _ _ _ => 0
  ds2 := fun _ _ => 0
  ds3 := fun _ _ _ => 0
  T2 := fun _ _ => 0
  T3 := fun _ _ _ => 0
  pi := fun _ => 0

theorem swap_ok {R : Type} {q : Tables R} (hS : q.n_S = 2) (hh : q.hmp = false) (he : q.ends_in_last = false) : Ok (Equiv.swap 0 1) q := by
  have e0 : Equiv.swap 0 1 0 = 1 := Equiv.swap_apply_left _ _
  have e1 : Equiv.swap 0 1 1 = 0 := Equiv.swap_apply_right _ _
  refine ⟨?_, ?_, ?_⟩
  · intro j
    rw [hS]
    rcases Nat.lt_or_ge j 2 with hj | hj
    · have : j = 0 ∨ j = 1 := by omega
      rcases this with rfl | rfl
      · rw [e0]; omega
      · rw [e1]; omega
    · rw [Equiv.swap_apply_of_ne_of_ne (by omega) (by omega)]
  · intro h; rw [hh] at h; cases h
  · intro h; rw [he] at h; cases h

/-- C128, negation where several segmentations are equally good: the decoded path is not the renamed path, since the lower number wins. -/
theorem ties_wrong : ∃ (s : Equiv.Perm ℕ) (q : Tables (WithBot ℝ)), Ok s q ∧ HmpOk q ∧ (viterbi q).isSome = true ∧
    viterbi (relab s q) ≠ (viterbi q).map fun r => (r.1, r.2.map s) := by
  have hq : HmpOk tie := fun h => absurd h (by decide)
  obtain ⟨ed, st, b, hv, ha, hl, -, -⟩ := viterbi_optimal tie hq (by decide) ⟨[⟨0, 0, 0⟩], ⟨rfl, by
      intro g hg
      simp at hg
      rw [hg]
      simp [SegOk, tie], _, _, rfl, by decide, by decide, by simp [tie], by simp [tie]⟩, by
      simp [logWeight, logWeightUpTo, obsSum, obs, tie, Tables.ds]⟩
  have e : relab (Equiv.swap 0 1) tie = tie := rfl
  refine ⟨Equiv.swap 0 1, tie, swap_ok rfl rfl rfl, hq, by rw [hv]; rfl, ?_⟩
  rw [e, hv]
  intro hc
  have h1 : st = st.map (Equiv.swap 0 1) := by simpa using hc
  obtain ⟨g, hg, -, -, hs⟩ := hl.2 0 (by decide)
  have h2 : (st.map (Equiv.swap 0 1))[0]? = some g.state := by rw [← h1]; exact hs
  rw [List.getElem?_map, hs] at h2
  have h3 : Equiv.swap 0 1 g.state = g.state := by simpa using h2
  have h4 : g.state < 2 := (ha.2.1 g hg).1
  have : g.state = 0 ∨ g.state = 1 := by omega
  rcases this with h | h <;> rw [h] at h3
  · rw [Equiv.swap_apply_left] at h3; omega
  · rw [Equiv.swap_apply_right] at h3; omega

end Verif.Relab
