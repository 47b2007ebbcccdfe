import Verif.ViterbiModel
import Verif.HsmmLemmas

/-! Specification (log joint probability of a segmentation) and helper lemmas for Viterbi decoding. -/

namespace Verif.Hsmm

open Finset

/-- Sum of the log emission probabilities of segment `s` over its time points that are at most `tmax`. -/
noncomputable def obsSum (m : Tables (WithBot ℝ)) (tmax : ℕ) (s : Seg) : WithBot ℝ :=
  ∑ t ∈ Finset.Icc s.start (min (s.start + s.dur) tmax), obs m s t

/-- Joint log-probability of a labelled segmentation (latest segment first) and the observations up to `tmax`. -/
noncomputable def logWeightUpTo (m : Tables (WithBot ℝ)) (tmax : ℕ) : List Seg → WithBot ℝ
  | [] => 0
  | [s] => m.pi s.state + m.ds s.dur s.state 0 + obsSum m tmax s
  | s :: p :: r =>
      m.T p.state s.state (s.start - 1) + m.ds s.dur (m.dcol s.state) s.start + obsSum m tmax s
        + logWeightUpTo m tmax (p :: r)

/-- Joint log-probability of a labelled segmentation and the whole series. -/
noncomputable def logWeight (m : Tables (WithBot ℝ)) (l : List Seg) : WithBot ℝ := logWeightUpTo m (m.n_T - 1) l

/-- `states` lists, for the time points `0, 1, ..., n-1`, the state of the segment of `l` that contains the time point. -/
def Labels (l : List Seg) (n : ℕ) (states : List ℕ) : Prop :=
  states.length = n ∧ ∀ t < n, ∃ s ∈ l, s.start ≤ t ∧ t ≤ s.start + s.dur ∧ states[t]? = some s.state

section weights
variable (m : Tables (WithBot ℝ))

theorem obsSum_eq_of_end (s : Seg) (t t' : ℕ) (h : s.start + s.dur ≤ t) (ht : t ≤ t') :
    obsSum m t' s = obsSum m t s := by
  unfold obsSum
  rw [min_eq_left h, min_eq_left (h.trans ht)]

theorem logWeightUpTo_eq_of_end (t t' : ℕ) (ht : t ≤ t') :
    ∀ l : List Seg, (∀ s ∈ l, s.start + s.dur ≤ t) → logWeightUpTo m t' l = logWeightUpTo m t l
  | [], _ => rfl
  | [s], h => by
    simp only [logWeightUpTo]
    rw [obsSum_eq_of_end m s t t' (h s (by simp)) ht]
  | s :: p :: r, h => by
    simp only [logWeightUpTo]
    rw [obsSum_eq_of_end m s t t' (h s (by simp)) ht,
      logWeightUpTo_eq_of_end t t' ht (p :: r) (fun s hs => h s (by simp [hs]))]

theorem obsSum_succ (s : Seg) (t : ℕ) (h0 : s.start ≤ t) (h1 : t + 1 ≤ s.start + s.dur) :
    obsSum m (t + 1) s = obsSum m t s + obs m s (t + 1) := by
  unfold obsSum
  rw [min_eq_right h1, min_eq_right (by omega : t ≤ s.start + s.dur), Finset.sum_Icc_succ_top (by omega)]

theorem logWeightUpTo_succ_cont (t : ℕ) (h : Seg) (r : List Seg) (hc : Chained (h :: r))
    (h0 : h.start ≤ t) (h1 : t + 1 ≤ h.start + h.dur) :
    logWeightUpTo m (t + 1) (h :: r) = logWeightUpTo m t (h :: r) + obs m h (t + 1) := by
  cases r with
  | nil =>
    simp only [logWeightUpTo]
    rw [obsSum_succ m h t h0 h1]; simp only [add_assoc]
  | cons p r =>
    have hend := chained_end r p hc.2.2
    have := hc.1
    simp only [logWeightUpTo]
    rw [obsSum_succ m h t h0 h1, logWeightUpTo_eq_of_end m t (t + 1) (by omega) (p :: r) (fun s hs => by
      have := hend s hs; omega)]
    simp only [add_assoc]
    rw [add_comm (obs m h (t + 1))]

theorem logWeightUpTo_succ_enter (t d j : ℕ) (p : Seg) (r : List Seg) (hc : Chained (p :: r))
    (hend : p.start + p.dur = t) :
    logWeightUpTo m (t + 1) (⟨t + 1, d, j⟩ :: p :: r) =
      logWeightUpTo m t (p :: r) + m.T p.state j t + obs m ⟨t + 1, d, j⟩ (t + 1) + m.ds d (m.dcol j) (t + 1) := by
  have he := chained_end r p hc
  simp only [logWeightUpTo]
  rw [logWeightUpTo_eq_of_end m t (t + 1) (by omega) (p :: r) (fun s hs => by have := he s hs; omega)]
  have : obsSum m (t + 1) ⟨t + 1, d, j⟩ = obs m ⟨t + 1, d, j⟩ (t + 1) := by
    unfold obsSum
    simp
  rw [this]
  simp only [Nat.add_sub_cancel]
  abel

end weights

/-! ### Running maximum -/

theorem upd_ge {ι : Type} (acc : WithBot ℝ × Option ι) (c : WithBot ℝ) (i : ι) :
    acc.1 ≤ (upd acc c i).1 ∧ c ≤ (upd acc c i).1 := by
  unfold upd
  split_ifs with h
  · exact ⟨h.le, le_rfl⟩
  · exact ⟨le_rfl, not_lt.1 h⟩

/-- A state of the running maximum is good for a family of candidates if it is `(⊥, none)`-like or attained. -/
def Attained {ι : Type} (P : WithBot ℝ → ι → Prop) (acc : WithBot ℝ × Option ι) : Prop :=
  acc.1 ≠ ⊥ → ∃ i, acc.2 = some i ∧ P acc.1 i

theorem upd_attained {ι : Type} (P : WithBot ℝ → ι → Prop) (acc : WithBot ℝ × Option ι) (c : WithBot ℝ) (i : ι)
    (h : Attained P acc) (hc : P c i) : Attained P (upd acc c i) := by
  unfold upd
  split_ifs
  · intro _; exact ⟨i, rfl, hc⟩
  · exact h

theorem foldl_upd_ge {ι κ : Type} (f : WithBot ℝ × Option ι → κ → WithBot ℝ × Option ι)
    (hf : ∀ acc k, acc.1 ≤ (f acc k).1) (ks : List κ) (acc : WithBot ℝ × Option ι) : acc.1 ≤ (ks.foldl f acc).1 := by
  induction ks generalizing acc with
  | nil => exact le_rfl
  | cons k ks ih => exact (hf acc k).trans (ih _)

theorem foldl_upd_mem {ι κ : Type} (f : WithBot ℝ × Option ι → κ → WithBot ℝ × Option ι)
    (hf : ∀ acc k, acc.1 ≤ (f acc k).1) (c : WithBot ℝ) (k : κ) (hk : ∀ acc, c ≤ (f acc k).1)
    (ks : List κ) (hmem : k ∈ ks) (acc : WithBot ℝ × Option ι) : c ≤ (ks.foldl f acc).1 := by
  induction ks generalizing acc with
  | nil => simp at hmem
  | cons k' ks ih =>
    rcases List.mem_cons.1 hmem with rfl | hmem
    · exact (hk acc).trans (foldl_upd_ge f hf ks _)
    · exact ih hmem _

theorem foldl_attained {ι κ : Type} (P : WithBot ℝ → ι → Prop)
    (f : WithBot ℝ × Option ι → κ → WithBot ℝ × Option ι) (ks : List κ)
    (hf : ∀ k ∈ ks, ∀ acc, Attained P acc → Attained P (f acc k))
    (acc : WithBot ℝ × Option ι) (h : Attained P acc) : Attained P (ks.foldl f acc) := by
  induction ks generalizing acc with
  | nil => exact h
  | cons k ks ih =>
    exact ih (fun k' hk' => hf k' (by simp [hk'])) _ (hf k (by simp) acc h)

/-! ### Recursion for `delta`, `psi` -/

/-- Hypothesis on `hmp` tables: bumps have a template of positive width and never last longer than it
(hsmm.py 690-692: the log-duration table of a bump is minus infinity except at `event_width - 1`). -/
def HmpOk (m : Tables (WithBot ℝ)) : Prop :=
  m.hmp = true → 1 ≤ m.event_width ∧
    ∀ d j t, m.event_width ≤ d → j % 2 = 1 → m.ds d j t = ⊥ ∧ m.ds d (m.dcol j) t = ⊥

/-- Value of continuing in state `j` at time `t+1` with `d` remaining steps. -/
noncomputable def contVal (m : Tables (WithBot ℝ)) (t d j : ℕ) : WithBot ℝ :=
  if m.hmp = true ∧ j % 2 = 1 ∧ m.event_width ≤ d then ⊥ else delta m t (d + 1) j + emCont m (t + 1) d j

/-- Value of entering `j` from `i`. -/
noncomputable def enterVal (m : Tables (WithBot ℝ)) (t d i j : ℕ) : WithBot ℝ :=
  delta m t 0 i + m.T i j t + emEnter m (t + 1) j + m.ds d (m.dcol j) (t + 1)

theorem vitCell_succ (m : Tables (WithBot ℝ)) (hm : HmpOk m) (t d j : ℕ)
    (hl : t + 1 + d < m.n_T ∨ m.ends_with_last = false) :
    vitCell m (t + 1) (delta m t) d j =
      (List.range m.n_S).foldl (fun acc i => if i = j then acc else upd acc (enterVal m t d i j) i)
        (if d + 1 ≤ m.D - 2 then upd (⊥, none) (contVal m t d j) j else (⊥, none)) := by
  unfold vitCell
  rw [if_neg (by omega), if_pos hl]
  simp only [Nat.add_sub_cancel]
  congr 1
  · funext acc i
    by_cases hij : i = j
    · simp [hij]
    · simp only [hij, if_false, enterVal, emEnter]
      by_cases hh : m.hmp = true <;> simp [hh]
  · by_cases h1 : d + 1 ≤ m.D - 2
    · rw [if_pos h1, if_pos h1]
      congr 1
      unfold contVal emCont
      by_cases h2 : m.hmp = true
      · by_cases h3 : j % 2 = 1
        · have := (hm h2).1
          by_cases h4 : m.event_width ≤ d
          · have h5 : ¬ d ≤ m.event_width - 1 := by omega
            simp only [h2, h3, h4, h5, if_true, if_false, and_self]
          · have h5 : d ≤ m.event_width - 1 := by omega
            simp only [h2, h3, h4, h5, if_true, if_false, and_false]
        · simp only [h2, h3, if_true, if_false, and_false, false_and]
      · simp only [h2, if_false, false_and, Bool.false_eq_true]
    · rw [if_neg h1, if_neg h1]

/-- Upper bound: no partial segmentation is better than `delta`. -/
theorem le_delta (m : Tables (WithBot ℝ)) (hm : HmpOk m) (t : ℕ) :
    ∀ d j l, j < m.n_S → d < m.D - 1 → Live m t d → Part m t d j l → logWeightUpTo m t l ≤ delta m t d j := by
  induction t with
  | zero =>
    rintro d j l hj hd _ ⟨hc, hok, h, r, rfl, rfl, h0, hsum⟩
    cases r with
    | cons p r => have := hc.1; omega
    | nil =>
      have hs0 : h.start = 0 := by omega
      have hd' : h.dur = d := by omega
      simp only [logWeightUpTo, delta, vitCell, if_true]
      rw [hd']
      have : obsSum m 0 h = emStart m 0 h.state := by
        unfold obsSum obs emStart
        simp [hs0]
      rw [this]
      unfold emStart
      split_ifs
      · simp only [add_assoc]; rw [add_comm (m.bs3 0 0 h.state)]
      · simp only [add_assoc]; rw [add_comm (m.bs2 0 h.state)]
  | succ t ih =>
    rintro d j l hj hd hl ⟨hc, hok, h, r, rfl, rfl, h0, hsum⟩
    have hl' : t + 1 + d < m.n_T ∨ m.ends_with_last = false := by
      rcases hl with h | h | h
      · omega
      · exact Or.inl h
      · exact Or.inr h
    simp only [delta]
    rw [vitCell_succ m hm t d _ hl']
    have hmono : ∀ (acc : WithBot ℝ × Option ℕ) (i : ℕ),
        acc.1 ≤ (if i = h.state then acc else upd acc (enterVal m t d i h.state) i).1 := by
      intro acc i
      split_ifs
      · exact le_rfl
      · exact (upd_ge _ _ _).1
    rcases Nat.lt_or_ge h.start (t + 1) with hlt | hge
    · have hdur := (hok h (by simp)).2.1
      have hd1 : d + 1 ≤ m.D - 2 := by omega
      refine le_trans ?_ (foldl_upd_ge _ hmono _ _)
      rw [if_pos hd1]
      refine le_trans ?_ (upd_ge _ _ _).2
      rw [logWeightUpTo_succ_cont m t h r hc (by omega) (by omega)]
      have hnb : ¬ (m.hmp = true ∧ h.state % 2 = 1 ∧ m.event_width ≤ d) := by
        rintro ⟨a, b, c⟩
        have := (hok h (by simp)).2.2 a b
        omega
      unfold contVal
      rw [if_neg hnb]
      have := ih (d + 1) h.state (h :: r) hj (by omega) (by
        rcases hl' with h | h
        · exact Or.inr (Or.inl (by omega))
        · exact Or.inr (Or.inr h)) ⟨hc, hok, h, r, rfl, rfl, by omega, by omega⟩
      refine add_le_add this (le_of_eq ?_)
      unfold obs emCont
      have h1 : t + 1 ≠ h.start := by omega
      have h2 : h.start + h.dur - (t + 1) = d := by omega
      simp only [h1, if_false, h2]
    · have hst : h.start = t + 1 := by omega
      have hdd : h.dur = d := by omega
      cases r with
      | nil => have : h.start = 0 := hc; omega
      | cons p r =>
        obtain ⟨h1, h2, h3⟩ := hc
        have hp := hok p (by simp)
        have hpend : p.start + p.dur = t := by omega
        refine foldl_upd_mem _ hmono _ p.state ?_ _ (List.mem_range.2 hp.1) _
        intro acc
        rw [if_neg (Ne.symm h2)]
        refine le_trans ?_ (upd_ge _ _ _).2
        have heq : h = ⟨t + 1, d, h.state⟩ := by cases h; simp_all
        rw [heq, logWeightUpTo_succ_enter m t d h.state p r h3 hpend]
        unfold enterVal
        have := ih 0 p.state (p :: r) hp.1 (by omega) (by
          rcases hl' with h | h
          · exact Or.inr (Or.inl (by omega))
          · exact Or.inr (Or.inr h)) ⟨h3, fun s hs => hok s (by simp [hs]), p, r, rfl, rfl, by omega, by omega⟩
        refine add_le_add (add_le_add (add_le_add this le_rfl) (le_of_eq ?_)) le_rfl
        unfold obs emEnter
        simp

/-- Attainment: a finite `delta` is the log-probability of a partial segmentation, and back-tracking returns its labels. -/
theorem delta_attained (m : Tables (WithBot ℝ)) (hm : HmpOk m) (t : ℕ) :
    ∀ d j, j < m.n_S → d < m.D - 1 → Live m t d → delta m t d j ≠ ⊥ →
      ∃ l st, Part m t d j l ∧ logWeightUpTo m t l = delta m t d j ∧ backtrack m t d j = some st ∧ Labels l (t + 1) st := by
  induction t with
  | zero =>
    intro d j hj hd _ hne
    simp only [delta, vitCell, if_true] at hne
    refine ⟨[⟨0, d, j⟩], [j], ⟨rfl, ?_, _, _, rfl, rfl, le_rfl, rfl⟩, ?_, ?_, rfl, ?_⟩
    · intro s hs
      simp at hs
      subst hs
      refine ⟨hj, hd, fun h1 h2 => ?_⟩
      by_contra h3
      have := ((hm h1).2 d j 0 (by simpa using h3) h2).1
      apply hne
      simp [h1, this]
    · simp only [logWeightUpTo, delta, vitCell, if_true]
      have : obsSum m 0 ⟨0, d, j⟩ = emStart m 0 j := by
        unfold obsSum obs emStart
        simp
      rw [this]
      unfold emStart
      split_ifs
      · simp only [add_assoc]; rw [add_comm (m.bs3 0 0 j)]
      · simp only [add_assoc]; rw [add_comm (m.bs2 0 j)]
    · simp [backtrack, hj, hd]
    · intro t ht
      have : t = 0 := by omega
      subst this
      exact ⟨⟨0, d, j⟩, by simp, by simp⟩
  | succ t ih =>
    intro d j hj hd hl hne
    have hl' : t + 1 + d < m.n_T ∨ m.ends_with_last = false := by
      rcases hl with h | h | h
      · omega
      · exact Or.inl h
      · exact Or.inr h
    have hlive : ∀ d', t + d' ≤ t + 1 + d → Live m t d' := by
      intro d' hd'
      rcases hl' with h | h
      · exact Or.inr (Or.inl (by omega))
      · exact Or.inr (Or.inr h)
    -- the running maximum is attained by one of the candidates
    have hatt : Attained (fun v i => (i = j ∧ d + 1 ≤ m.D - 2 ∧ v = contVal m t d j) ∨
        (i ≠ j ∧ i < m.n_S ∧ v = enterVal m t d i j)) (vitCell m (t + 1) (delta m t) d j) := by
      rw [vitCell_succ m hm t d _ hl']
      apply foldl_attained
      · intro k hk acc hacc
        split_ifs with hkj
        · exact hacc
        · exact upd_attained _ _ _ _ hacc (Or.inr ⟨hkj, List.mem_range.1 hk, rfl⟩)
      · split_ifs with h1
        · apply upd_attained
          · intro h; exact absurd rfl h
          · exact Or.inl ⟨rfl, h1, rfl⟩
        · intro h; exact absurd rfl h
    obtain ⟨i, hpsi, hi⟩ := hatt hne
    have hpsi' : psi m (t + 1) d j = some i := hpsi
    have hdelta : delta m (t + 1) d j = (vitCell m (t + 1) (delta m t) d j).1 := rfl
    rcases hi with ⟨rfl, hd1, hv⟩ | ⟨hij, hin, hv⟩
    · -- continuation
      rw [← hdelta] at hv
      have hnb : ¬ (m.hmp = true ∧ i % 2 = 1 ∧ m.event_width ≤ d) := by
        intro h
        apply hne
        rw [hv]; unfold contVal; rw [if_pos h]
      unfold contVal at hv
      rw [if_neg hnb] at hv
      have hne' : delta m t (d + 1) i ≠ ⊥ := by
        intro h; apply hne; rw [hv, h, WithBot.bot_add]
      obtain ⟨l, st, hp, hw, hb, hlab⟩ := ih (d + 1) i hj (by omega) (hlive _ (by omega)) hne'
      obtain ⟨hc, hok, h, r, rfl, rfl, h0, hsum⟩ := hp
      refine ⟨h :: r, st ++ [h.state], ⟨hc, hok, h, r, rfl, rfl, by omega, by omega⟩, ?_, ?_, ?_, ?_⟩
      · rw [logWeightUpTo_succ_cont m t h r hc h0 (by omega), hw, hv]
        congr 1
        unfold obs emCont
        have h1 : t + 1 ≠ h.start := by omega
        have h2 : h.start + h.dur - (t + 1) = d := by omega
        simp only [h1, if_false, h2]
      · simp only [backtrack]
        rw [if_pos ⟨hd, hj⟩, hpsi']
        simp [hb]
      · simp [hlab.1]
      · intro τ hτ
        rcases Nat.lt_or_ge τ (t + 1) with hlt | hge
        · obtain ⟨s, hs, a, b, c⟩ := hlab.2 τ hlt
          refine ⟨s, hs, a, b, ?_⟩
          rw [List.getElem?_append_left (by rw [hlab.1]; exact hlt)]
          exact c
        · refine ⟨h, by simp, by omega, by omega, ?_⟩
          rw [List.getElem?_append_right (by rw [hlab.1]; exact hge)]
          have : τ - st.length = 0 := by rw [hlab.1]; omega
          rw [this]; rfl
    · -- entering from another state
      rw [← hdelta] at hv
      have hne' : delta m t 0 i ≠ ⊥ := by
        intro h; apply hne; rw [hv]; unfold enterVal; rw [h]; simp
      have hok' : SegOk m ⟨t + 1, d, j⟩ := by
        refine ⟨hj, hd, fun h1 h2 => ?_⟩
        by_contra h3
        have := ((hm h1).2 d j (t + 1) (by simpa using h3) h2).2
        apply hne
        rw [hv]; unfold enterVal; rw [this]; simp
      obtain ⟨l, st, hp, hw, hb, hlab⟩ := ih 0 i hin (by omega) (hlive _ (by omega)) hne'
      obtain ⟨hc, hok, p, r, rfl, rfl, h0, hsum⟩ := hp
      refine ⟨⟨t + 1, d, j⟩ :: p :: r, st ++ [j],
        ⟨⟨by simp; omega, fun h => hij h.symm, hc⟩, ?_, _, _, rfl, rfl, le_rfl, rfl⟩, ?_, ?_, ?_, ?_⟩
      · intro s hs
        rcases List.mem_cons.1 hs with rfl | hs
        · exact hok'
        · exact hok s hs
      · rw [logWeightUpTo_succ_enter m t d j p r hc hsum, hw, hv]
        unfold enterVal obs emEnter
        simp
      · simp only [backtrack]
        rw [if_pos ⟨hd, hj⟩, hpsi']
        simp [hb, hij]
      · simp [hlab.1]
      · intro τ hτ
        rcases Nat.lt_or_ge τ (t + 1) with hlt | hge
        · obtain ⟨s, hs, a, b, c⟩ := hlab.2 τ hlt
          refine ⟨s, by simp [hs], a, b, ?_⟩
          rw [List.getElem?_append_left (by rw [hlab.1]; exact hlt)]
          exact c
        · refine ⟨⟨t + 1, d, j⟩, by simp, by simp; omega, by simp; omega, ?_⟩
          rw [List.getElem?_append_right (by rw [hlab.1]; exact hge)]
          have : τ - st.length = 0 := by rw [hlab.1]; omega
          rw [this]; rfl

end Verif.Hsmm
