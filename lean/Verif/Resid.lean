import Verif.ResidModel
import Verif.Sample

/-! Property theorems: forward pseudo-residuals (C05) and predictive residuals (C06). -/

namespace Verif.Hsmm

open Finset

/-- A labelled segmentation (latest first) of the time axis up to `t`: the last segment contains `t` and may go on. -/
def PartialSeg (m : Tables ℝ) (t : ℕ) (l : List Seg) : Prop :=
  Chained l ∧ (∀ s ∈ l, SegOk m s) ∧ ∃ h r, l = h :: r ∧ h.start ≤ t ∧ t ≤ h.start + h.dur

/-- The tables with the emission entries of time `t` replaced. -/
def withObs (m : Tables ℝ) (t : ℕ) (c2 : ℕ → ℝ) (c3 : ℕ → ℕ → ℝ) : Tables ℝ :=
  { m with bs2 := fun t' j => if t' = t then c2 j else m.bs2 t' j,
           bs3 := fun t' k j => if t' = t then c3 k j else m.bs3 t' k j }

/-- Enumeration of the partial segmentations. -/
def reach (m : Tables ℝ) (t : ℕ) : Finset (List Seg) :=
  (range (m.D - 1) ×ˢ range m.n_S).biUnion fun c => parts m t c.1 c.2

theorem mem_reach (m : Tables ℝ) (t : ℕ) (l : List Seg) : l ∈ reach m t ↔ PartialSeg m t l := by
  unfold reach
  simp only [mem_biUnion, mem_product, mem_range]
  constructor
  · rintro ⟨⟨d, j⟩, ⟨hd, hj⟩, hl⟩
    obtain ⟨hc, hok, h, r, rfl, rfl, h0, hsum⟩ := (mem_parts m _ _ _ _ hj).1 hl
    exact ⟨hc, hok, h, r, rfl, h0, by omega⟩
  · rintro ⟨hc, hok, h, r, rfl, h0, h1⟩
    have hs := hok h (by simp)
    refine ⟨(h.start + h.dur - t, h.state), ⟨by have := hs.2.1; simp only; omega, hs.1⟩, ?_⟩
    exact (mem_parts m _ _ _ _ hs.1).2 ⟨hc, hok, h, r, rfl, rfl, h0, by omega⟩

theorem sum_reach (m : Tables ℝ) (t : ℕ) (w : List Seg → ℝ) :
    ∑ l ∈ reach m t, w l = ∑ d ∈ range (m.D - 1), ∑ j ∈ range m.n_S, ∑ l ∈ parts m t d j, w l := by
  unfold reach
  rw [sum_biUnion, sum_product]
  rintro ⟨d, j⟩ hc ⟨d', j'⟩ hc' hne
  simp only [coe_product, Set.mem_prod, mem_coe, mem_range] at hc hc'
  rw [Function.onFun, disjoint_left]
  intro l hl hl'
  obtain ⟨_, _, h, r, rfl, rfl, h0, hsum⟩ := (mem_parts m _ _ _ _ hc.2).1 hl
  obtain ⟨_, _, h', r', he, hj', h0', hsum'⟩ := (mem_parts m _ _ _ _ hc'.2).1 hl'
  rw [List.cons.injEq] at he
  apply hne
  rw [← he.1] at hj' hsum'
  ext
  · simp only at hsum hsum' ⊢; omega
  · exact hj'

theorem sum_reach_F (m : Tables ℝ) (t : ℕ) :
    ∑ l ∈ reach m t, weightUpTo m t l = ∑ d ∈ range (m.D - 1), ∑ j ∈ range m.n_S, F m t d j := sum_reach m t _

/-- The likelihood recursion does not look ahead. -/
theorem lam_withObs (m : Tables ℝ) (t : ℕ) (c2 c3) (s : ℕ) (hs : s < t) : lam (withObs m t c2 c3) s = lam m s := by
  induction s with
  | zero =>
    funext d j
    simp only [lam, lamCell, withObs, if_neg (by omega : ¬ 0 = t)]
    rfl
  | succ s ih =>
    funext d j
    simp only [lam]
    rw [ih (by omega)]
    simp only [lamCell, lamSum, lamContrib, withObs, if_neg (by omega : ¬ s + 1 = t)]
    rfl

theorem Lam_withObs (m : Tables ℝ) (t : ℕ) (c2 c3) (s : ℕ) (hs : s < t) : Lam (withObs m t c2 c3) s = Lam m s := by
  unfold Lam
  rw [lam_withObs m t c2 c3 s hs]
  rfl

theorem lam_of_skip (m : Tables ℝ) (t d j : ℕ) (h : m.hmp = true ∧ j % 2 = 1 ∧ m.event_width ≤ d) : lam m t d j = 0 := by
  cases t <;> simp only [lam, lamCell, if_pos h]

theorem sbLam_eq (m : Tables ℝ) (t : ℕ) (v w : ℕ → ℕ → ℝ) (hv : ∀ d j, j < m.n_S → v d j = w d j)
    (hw : ∀ d j, m.hmp = true ∧ j % 2 = 1 ∧ m.event_width ≤ d → w d j = 0) : sbLam m t v = lamSum m t w := by
  unfold sbLam lamSum
  apply sum_congr rfl
  intro d _
  apply sum_congr rfl
  intro j hj
  rw [hv d j (mem_range.1 hj)]
  exact sbContrib_eq m t d j _ (hw d j)

/-- One cell of the residual functions is one cell of the likelihood recursion with replaced emissions. -/
theorem residCell_eq (m : Tables ℝ) (hb : BumpDur m) (e2 : ℕ → ℝ) (e3 : ℕ → ℕ → ℝ) (t : ℕ) (prev prev' : ℕ → ℕ → ℝ) (L : ℝ)
    (hp : ∀ d j, j < m.n_S → prev d j = prev' d j) (d j : ℕ) (hj : j < m.n_S) :
    residCell m e2 e3 t prev L d j = lamCell (withObs m t e2 e3) t prev' L d j := by
  have e2' : (withObs m t e2 e3).bs2 t = e2 := by funext j; simp [withObs]
  have e3' : (withObs m t e2 e3).bs3 t = e3 := by funext k j; simp [withObs]
  have hcol : (withObs m t e2 e3).dcol = m.dcol := rfl
  have hds : (withObs m t e2 e3).ds = m.ds := rfl
  have hT : (withObs m t e2 e3).T = m.T := rfl
  have hh : (withObs m t e2 e3).hmp = m.hmp := rfl
  have hew : (withObs m t e2 e3).event_width = m.event_width := rfl
  have hD : (withObs m t e2 e3).D = m.D := rfl
  have hS : (withObs m t e2 e3).n_S = m.n_S := rfl
  have hN : (withObs m t e2 e3).n_T = m.n_T := rfl
  have hE : (withObs m t e2 e3).ends_with_last = m.ends_with_last := rfl
  have hpi : (withObs m t e2 e3).pi = m.pi := rfl
  unfold residCell lamCell
  simp only [e2', e3', hcol, hds, hT, hh, hew, hD, hS, hN, hE, hpi]
  have hsum : (∑ i ∈ range m.n_S, if i = j then 0 else prev 0 i * m.T i j (t - 1)) =
      ∑ i ∈ range m.n_S, if i = j then 0 else prev' 0 i * m.T i j (t - 1) := by
    apply sum_congr rfl
    intro i hi
    rw [hp 0 i (mem_range.1 hi)]
  rw [hsum, hp (d + 1) j hj]
  by_cases hskip : m.hmp = true ∧ j % 2 = 1 ∧ m.event_width ≤ d
  · rw [if_pos hskip]
    obtain ⟨h1, h2, h3⟩ := hskip
    obtain ⟨hw, hz⟩ := hb h1
    have hz' := hz j hj h2 d h3 t
    simp only [h1, h2, if_true, hz'.1, hz'.2, mul_zero, add_zero]
    rw [if_neg (by omega : ¬ d ≤ m.event_width - 1)]
    simp
  · rw [if_neg hskip]
    simp only [mul_assoc]

theorem withObs_self (m : Tables ℝ) (t : ℕ) : withObs m t (m.bs2 t) (m.bs3 t) = m := by
  unfold withObs
  congr 1
  · funext t' j
    by_cases h : t' = t
    · simp [h]
    · simp [h]
  · funext t' k j
    by_cases h : t' = t
    · simp [h]
    · simp [h]

theorem fwdLam_eq (m : Tables ℝ) (hb : BumpDur m) (t : ℕ) :
    (∀ d j, j < m.n_S → fwdLam m t d j = lam m t d j) ∧ sbLam m t (fwdLam m t) = Lam m t := by
  have hsum : ∀ t, (∀ d j, j < m.n_S → fwdLam m t d j = lam m t d j) → sbLam m t (fwdLam m t) = Lam m t :=
    fun t h => sbLam_eq m t _ _ h (fun d j hs => lam_of_skip m t d j hs)
  induction t with
  | zero =>
    have h0 : ∀ d j, j < m.n_S → fwdLam m 0 d j = lam m 0 d j := by
      intro d j hj
      have := residCell_eq m hb (m.bs2 0) (m.bs3 0) 0 (fun _ _ => 0) (fun _ _ => 0) 0 (fun _ _ _ => rfl) d j hj
      rw [withObs_self] at this
      exact this
    exact ⟨h0, hsum 0 h0⟩
  | succ t ih =>
    have h1 : ∀ d j, j < m.n_S → fwdLam m (t + 1) d j = lam m (t + 1) d j := by
      intro d j hj
      have := residCell_eq m hb (m.bs2 (t + 1)) (m.bs3 (t + 1)) (t + 1) (fwdLam m t) (lam m t) (sbLam m t (fwdLam m t))
        ih.1 d j hj
      rw [withObs_self, ih.2] at this
      simp only [fwdLam, lam]
      rw [ih.2]
      exact this
    exact ⟨h1, hsum _ h1⟩

/-- The residual is the normaliser of the recursion in which the emissions of time `t` are replaced. -/
theorem forwardResid_eq (m : Tables ℝ) (hb : BumpDur m) (c2 c3) (t : ℕ) :
    forwardResid m c2 c3 t = Lam (withObs m t c2 c3) t := by
  cases t with
  | zero =>
    exact sbLam_eq m 0 _ (lam (withObs m 0 c2 c3) 0)
      (fun d j hj => residCell_eq m hb c2 c3 0 _ _ _ (fun _ _ _ => rfl) d j hj)
      (fun d j hs => lam_of_skip (withObs m 0 c2 c3) 0 d j hs)
  | succ t =>
    have hL := (fwdLam_eq m hb t).2
    simp only [forwardResid]
    rw [hL]
    refine (sbLam_eq m (t + 1) _ (lam (withObs m (t + 1) c2 c3) (t + 1)) (fun d j hj => ?_)
      (fun d j hs => lam_of_skip (withObs m (t + 1) c2 c3) (t + 1) d j hs)).trans rfl
    rw [residCell_eq m hb c2 c3 (t + 1) _ (lam m t) _ (fwdLam_eq m hb t).1 d j hj]
    simp only [lam]
    rw [lam_withObs m (t + 1) c2 c3 t (by omega)]
    rfl

/-- Where no boundary switch removes cells, the normalisers multiply up to the probability of the data so far. -/
theorem Lam_mul_prod (m : Tables ℝ) (he : m.ends_with_last = false) (t : ℕ) (hL : ∀ s < t, Lam m s ≠ 0)
    (ht : t < m.n_T - 1 ∨ m.ends_in_last = false) :
    Lam m t * ∏ s ∈ range t, Lam m s = ∑ d ∈ range (m.D - 1), ∑ j ∈ range m.n_S, F m t d j := by
  unfold Lam lamSum
  rw [sum_mul]
  apply sum_congr rfl
  intro d hd
  rw [sum_mul]
  apply sum_congr rfl
  intro j hj
  rw [mem_range] at hd hj
  have hc : lamContrib m t d j (lam m t d j) = lam m t d j := by
    unfold lamContrib
    by_cases hskip : m.hmp = true ∧ j % 2 = 1 ∧ m.event_width ≤ d
    · rw [if_pos hskip, lam_of_skip m t d j hskip]
    · rw [if_neg hskip, if_pos (Or.inr he), if_pos ht]
  rw [hc]
  exact lam_eq m t hL d j hj hd (Or.inr (Or.inr he))

theorem prod_Lam (m : Tables ℝ) (he : m.ends_with_last = false) (t : ℕ) (hL : ∀ s < t + 1, Lam m s ≠ 0)
    (ht : t < m.n_T - 1) : ∏ s ∈ range (t + 1), Lam m s = ∑ l ∈ reach m t, weightUpTo m t l := by
  rw [prod_range_succ, mul_comm, Lam_mul_prod m he t (fun s hs => hL s (by omega)) (Or.inl ht), sum_reach_F]

theorem weightUpTo_withObs (m : Tables ℝ) (t : ℕ) (c2 c3) (s : ℕ) (hs : s < t) (l : List Seg) :
    weightUpTo (withObs m t c2 c3) s l = weightUpTo m s l := by
  have ho : ∀ g : Seg, obsProd (withObs m t c2 c3) s g = obsProd m s g := by
    intro g
    unfold obsProd
    apply prod_congr rfl
    intro u hu
    have hu' : ¬ u = t := by
      have := (mem_Icc.1 hu).2
      have := min_le_right (g.start + g.dur) s
      omega
    simp only [obs, withObs, hu', if_false]
  induction l with
  | nil => rfl
  | cons g r ih =>
    cases r with
    | nil =>
      simp only [weightUpTo]
      rw [ho]; rfl
    | cons p r =>
      simp only [weightUpTo]
      rw [ho, ih]; rfl

/-- C05. With `ends_with_last` off (and before the last time point, or with `ends_in_last` off), the forward
pseudo-residual at `t` is a conditional probability: the joint probability of the past and the event `Y_t <= y_t`,
i.e. of all partial segmentations with the emission of time `t` replaced by the distribution function values,
divided by the joint probability of the past. Missing for the full claim: the boundary switches, see
`forwardResid_boundary_wrong`. -/
theorem forwardResid_is_conditional_cdf_partial (m : Tables ℝ) (hb : BumpDur m) (he : m.ends_with_last = false)
    (c2 : ℕ → ℝ) (c3 : ℕ → ℕ → ℝ) (t : ℕ) (ht : t < m.n_T) (hlast : t < m.n_T - 1 ∨ m.ends_in_last = false)
    (hL : ∀ s < t, Lam m s ≠ 0)
    (A : Finset (List Seg)) (hA : ∀ l, l ∈ A ↔ PartialSeg m t l)
    (B : Finset (List Seg)) (hB : ∀ l, l ∈ B ↔ PartialSeg m (t - 1) l) :
    forwardResid m c2 c3 t =
      (∑ l ∈ A, weightUpTo (withObs m t c2 c3) t l) / (if t = 0 then 1 else ∑ l ∈ B, weightUpTo m (t - 1) l) := by
  have hAe : A = reach (withObs m t c2 c3) t := by
    ext l; rw [hA, mem_reach]; exact Iff.rfl
  have hBe : B = reach m (t - 1) := by ext l; rw [hB, mem_reach]
  subst hAe hBe
  rw [forwardResid_eq m hb, sum_reach_F]
  have hL' : ∀ s < t, Lam (withObs m t c2 c3) s ≠ 0 := fun s hs => by
    rw [Lam_withObs m t c2 c3 s hs]; exact hL s hs
  have h := Lam_mul_prod (withObs m t c2 c3) he t hL' hlast
  rw [← h]
  cases t with
  | zero => simp
  | succ t =>
    rw [if_neg (by omega), Nat.add_sub_cancel, ← prod_Lam m he t hL (by omega),
      prod_congr rfl fun s hs => Lam_withObs m (t + 1) c2 c3 s (mem_range.1 hs)]
    have hne : ∏ s ∈ range (t + 1), Lam m s ≠ 0 := prod_ne_zero_iff.2 fun s hs => hL s (mem_range.1 hs)
    field_simp

/-- All tables are probability distributions: initial states, durations of every state, and transitions into another
state. -/
structure Proper (m : Tables ℝ) : Prop extends NonNeg m where
  pi_sum : ∑ j ∈ range m.n_S, m.pi j = 1
  first_dur : ∀ j < m.n_S, ∑ d ∈ range (m.D - 1), m.ds d j 0 = 1
  dur : ∀ j < m.n_S, ∀ t, ∑ d ∈ range (m.D - 1), m.ds d (m.dcol j) t = 1
  trans : ∀ i < m.n_S, ∀ t, (∑ j ∈ range m.n_S, if i = j then 0 else m.T i j t) = 1

theorem F_withObs (m : Tables ℝ) (t : ℕ) (c2 c3) (s : ℕ) (hs : s < t) (d j : ℕ) (hj : j < m.n_S) :
    F (withObs m t c2 c3) s d j = F m s d j := by
  unfold F
  have : parts (withObs m t c2 c3) s d j = parts m s d j := by
    ext l
    rw [mem_parts (withObs m t c2 c3) s d j l hj, mem_parts m s d j l hj]
    exact Iff.rfl
  rw [this]
  exact sum_congr rfl fun l _ => weightUpTo_withObs m t c2 c3 s hs l

/-- Emissions replaced by values between 0 and 1 in every slot. -/
def Bounded (c2 : ℕ → ℝ) (c3 : ℕ → ℕ → ℝ) : Prop := (∀ j, 0 ≤ c2 j ∧ c2 j ≤ 1) ∧ ∀ k j, 0 ≤ c3 k j ∧ c3 k j ≤ 1

theorem withObs_nonneg (m : Tables ℝ) (hm : NonNeg m) (t : ℕ) (c2 c3) (hc : Bounded c2 c3) : NonNeg (withObs m t c2 c3) where
  bs2 := fun t' j => by simp only [withObs]; split_ifs; exacts [(hc.1 j).1, hm.bs2 _ _]
  bs3 := fun t' k j => by simp only [withObs]; split_ifs; exacts [(hc.2 k j).1, hm.bs3 _ _ _]
  ds2 := hm.ds2
  ds3 := hm.ds3
  T2 := hm.T2
  T3 := hm.T3
  pi := hm.pi

theorem F_nonneg (m : Tables ℝ) (hm : NonNeg m) (t d j : ℕ) : 0 ≤ F m t d j :=
  sum_nonneg fun l _ => weightUpTo_nonneg m hm t l

/-- Replacing the emissions of time `t` by larger ones makes every cell weight larger. -/
theorem F_withObs_mono (m : Tables ℝ) (hm : NonNeg m) (t : ℕ) (c2 c3 c2' c3')
    (h2 : ∀ j, c2 j ≤ c2' j) (h3 : ∀ k j, c3 k j ≤ c3' k j) (d j : ℕ) (hj : j < m.n_S) :
    F (withObs m t c2 c3) t d j ≤ F (withObs m t c2' c3') t d j := by
  have hds : ∀ d j t, 0 ≤ m.ds d j t := by
    intro d j t; unfold Tables.ds; split_ifs; exacts [hm.ds3 _ _ _, hm.ds2 _ _]
  have hT : ∀ d j t, 0 ≤ m.T d j t := by
    intro d j t; unfold Tables.T; split_ifs; exacts [hm.T3 _ _ _, hm.T2 _ _]
  cases t with
  | zero =>
    rw [F_zero, F_zero]
    have hok : SegOk (withObs m 0 c2 c3) ⟨0, d, j⟩ ↔ SegOk (withObs m 0 c2' c3') ⟨0, d, j⟩ := Iff.rfl
    by_cases h : SegOk (withObs m 0 c2 c3) ⟨0, d, j⟩
    · rw [if_pos h, if_pos (hok.1 h)]
      refine mul_le_mul_of_nonneg_left ?_ (mul_nonneg (hm.pi _) (hds _ _ _))
      simp only [emStart, withObs, if_true]
      split_ifs
      · exact h3 _ _
      · exact h2 _
    · rw [if_neg h, if_neg (fun h' => h (hok.2 h'))]
  | succ t =>
    rw [F_succ (withObs m (t + 1) c2 c3) t d j hj, F_succ (withObs m (t + 1) c2' c3') t d j hj]
    have hcont : emCont (withObs m (t + 1) c2 c3) (t + 1) d j ≤ emCont (withObs m (t + 1) c2' c3') (t + 1) d j := by
      simp only [emCont, withObs, if_true]
      split_ifs
      · exact h3 _ _
      · exact h3 _ _
      · exact h2 _
    have hent : emEnter (withObs m (t + 1) c2 c3) (t + 1) j ≤ emEnter (withObs m (t + 1) c2' c3') (t + 1) j := by
      simp only [emEnter, withObs, if_true]
      split_ifs
      · exact h3 _ _
      · exact h3 _ _
      · exact h2 _
    have hS : (withObs m (t + 1) c2 c3).n_S = m.n_S := rfl
    have hS' : (withObs m (t + 1) c2' c3').n_S = m.n_S := rfl
    have hF0 : ∀ i ∈ range m.n_S, F (withObs m (t + 1) c2 c3) t 0 i = F m t 0 i := fun i hi =>
      F_withObs m (t + 1) c2 c3 t (by omega) 0 i (mem_range.1 hi)
    have hF0' : ∀ i ∈ range m.n_S, F (withObs m (t + 1) c2' c3') t 0 i = F m t 0 i := fun i hi =>
      F_withObs m (t + 1) c2' c3' t (by omega) 0 i (mem_range.1 hi)
    have hs : (∑ i ∈ range m.n_S, if i = j then 0 else F (withObs m (t + 1) c2 c3) t 0 i * (withObs m (t + 1) c2 c3).T i j t) =
        ∑ i ∈ range m.n_S, if i = j then 0 else F m t 0 i * m.T i j t :=
      sum_congr rfl fun i hi => by rw [hF0 i hi]; rfl
    have hs' : (∑ i ∈ range m.n_S, if i = j then 0 else F (withObs m (t + 1) c2' c3') t 0 i * (withObs m (t + 1) c2' c3').T i j t) =
        ∑ i ∈ range m.n_S, if i = j then 0 else F m t 0 i * m.T i j t :=
      sum_congr rfl fun i hi => by rw [hF0' i hi]; rfl
    rw [hS, hS', hs, hs', F_withObs m (t + 1) c2 c3 t (by omega) (d + 1) j hj,
      F_withObs m (t + 1) c2' c3' t (by omega) (d + 1) j hj]
    have hsn : 0 ≤ ∑ i ∈ range m.n_S, if i = j then 0 else F m t 0 i * m.T i j t := by
      apply sum_nonneg
      intro i _
      split_ifs
      · exact le_rfl
      · exact mul_nonneg (F_nonneg m hm _ _ _) (hT _ _ _)
    have hok : SegOk (withObs m (t + 1) c2 c3) ⟨t + 1, d, j⟩ ↔ SegOk (withObs m (t + 1) c2' c3') ⟨t + 1, d, j⟩ := Iff.rfl
    refine add_le_add ?_ ?_
    · have hD : (withObs m (t + 1) c2 c3).D = (withObs m (t + 1) c2' c3').D := rfl
      rw [hD]
      split_ifs
      · exact mul_le_mul_of_nonneg_left hcont (F_nonneg m hm _ _ _)
      · exact le_rfl
    · by_cases h : SegOk (withObs m (t + 1) c2 c3) ⟨t + 1, d, j⟩
      · rw [if_pos h, if_pos (hok.1 h)]
        refine mul_le_mul_of_nonneg_left ?_ hsn
        exact mul_le_mul_of_nonneg_right hent (hds _ _ _)
      · rw [if_neg h, if_neg (fun h' => h (hok.2 h'))]

/-- Law of total probability: dropping the emission of the last time point leaves the probability of the past. -/
theorem F_total (m : Tables ℝ) (hm : Proper m) (hb : BumpDur m) (t : ℕ) :
    ∑ d ∈ range (m.D - 1), ∑ j ∈ range m.n_S, F (withObs m (t + 1) (fun _ => 1) (fun _ _ => 1)) (t + 1) d j =
      ∑ d ∈ range (m.D - 1), ∑ j ∈ range m.n_S, F m t d j := by
  have hstep : ∀ d ∈ range (m.D - 1), ∀ j ∈ range m.n_S,
      F (withObs m (t + 1) (fun _ => 1) (fun _ _ => 1)) (t + 1) d j =
        (if d + 1 ≤ m.D - 2 then F m t (d + 1) j else 0) +
          (∑ i ∈ range m.n_S, if i = j then 0 else F m t 0 i * m.T i j t) * m.ds d (m.dcol j) (t + 1) := by
    intro d hd j hj
    rw [mem_range] at hd hj
    rw [F_succ (withObs m (t + 1) (fun _ => 1) (fun _ _ => 1)) t d j hj]
    have e1 : emCont (withObs m (t + 1) (fun _ => 1) (fun _ _ => 1)) (t + 1) d j = 1 := by
      simp [emCont, withObs]
    have e2 : emEnter (withObs m (t + 1) (fun _ => 1) (fun _ _ => 1)) (t + 1) j = 1 := by
      simp [emEnter, withObs]
    have hS : (withObs m (t + 1) (fun _ => 1) (fun _ _ => 1)).n_S = m.n_S := rfl
    have hD : (withObs m (t + 1) (fun _ => 1) (fun _ _ => 1)).D = m.D := rfl
    have hs : (∑ i ∈ range m.n_S, if i = j then 0 else F (withObs m (t + 1) (fun _ => 1) (fun _ _ => 1)) t 0 i *
          (withObs m (t + 1) (fun _ => 1) (fun _ _ => 1)).T i j t) =
        ∑ i ∈ range m.n_S, if i = j then 0 else F m t 0 i * m.T i j t :=
      sum_congr rfl fun i hi => by
        rw [F_withObs m (t + 1) _ _ t (by omega) 0 i (mem_range.1 hi)]; rfl
    rw [e1, e2, hS, hD, hs, F_withObs m (t + 1) _ _ t (by omega) (d + 1) j hj, mul_one, one_mul]
    congr 1
    by_cases hok : SegOk (withObs m (t + 1) (fun _ => 1) (fun _ _ => 1)) ⟨t + 1, d, j⟩
    · rw [if_pos hok]; rfl
    · rw [if_neg hok]
      have : m.hmp = true ∧ j % 2 = 1 ∧ m.event_width ≤ d := by
        by_contra hcon
        apply hok
        refine ⟨hj, hd, fun h1 h2 => ?_⟩
        by_contra h3
        exact hcon ⟨h1, h2, not_lt.1 h3⟩
      rw [((hb this.1).2 j hj this.2.1 d this.2.2 (t + 1)).2, mul_zero]
  rw [sum_congr rfl fun d hd => sum_congr rfl fun j hj => hstep d hd j hj]
  rw [sum_comm]
  have hj : ∀ j ∈ range m.n_S, ∑ d ∈ range (m.D - 1), ((if d + 1 ≤ m.D - 2 then F m t (d + 1) j else 0) +
      (∑ i ∈ range m.n_S, if i = j then 0 else F m t 0 i * m.T i j t) * m.ds d (m.dcol j) (t + 1)) =
      (∑ d ∈ range (m.D - 1), if d + 1 ≤ m.D - 2 then F m t (d + 1) j else 0) +
        ∑ i ∈ range m.n_S, if i = j then 0 else F m t 0 i * m.T i j t := by
    intro j hj
    rw [sum_add_distrib, ← mul_sum, hm.dur j (mem_range.1 hj), mul_one]
  rw [sum_congr rfl hj, sum_add_distrib]
  have hin : (∑ j ∈ range m.n_S, ∑ i ∈ range m.n_S, if i = j then 0 else F m t 0 i * m.T i j t) =
      ∑ i ∈ range m.n_S, F m t 0 i := by
    rw [sum_comm]
    apply sum_congr rfl
    intro i hi
    have : ∀ j, (if i = j then 0 else F m t 0 i * m.T i j t) = F m t 0 i * (if i = j then 0 else m.T i j t) := by
      intro j; split_ifs <;> simp
    rw [sum_congr rfl fun j _ => this j, ← mul_sum, hm.trans i (mem_range.1 hi), mul_one]
  rw [hin]
  conv_rhs => rw [sum_comm]
  by_cases hS : m.n_S = 0
  · simp [hS]
  have hD : m.D - 1 ≠ 0 := by
    intro h0
    have := hm.dur 0 (by omega) 0
    rw [h0] at this
    simp at this
  obtain ⟨n, hn⟩ : ∃ n, m.D - 1 = n + 1 := ⟨m.D - 2, by omega⟩
  rw [← sum_add_distrib]
  apply sum_congr rfl
  intro j _
  rw [hn, sum_range_succ, if_neg (by omega), sum_range_succ', add_zero]
  congr 1
  apply sum_congr rfl
  intro d hd
  rw [if_pos (by have := mem_range.1 hd; omega)]

/-- C05, range. Under the same conditions, with proper probability tables and distribution function values in `[0,1]`, the
forward pseudo-residual lies in `[0,1]`; it is 1 when the distribution function values are all 1; and it is monotone in
them. -/
theorem forwardResid_unit_interval_partial (m : Tables ℝ) (hm : Proper m) (hb : BumpDur m) (he : m.ends_with_last = false)
    (t : ℕ) (ht : t < m.n_T) (hlast : t < m.n_T - 1 ∨ m.ends_in_last = false) (hL : ∀ s < t, Lam m s ≠ 0) :
    forwardResid m (fun _ => 1) (fun _ _ => 1) t = 1 ∧
    ∀ c2 c3, Bounded c2 c3 → 0 ≤ forwardResid m c2 c3 t ∧ forwardResid m c2 c3 t ≤ 1 := by
  have hone : forwardResid m (fun _ => 1) (fun _ _ => 1) t = 1 := by
    rw [forwardResid_eq m hb]
    have hL' : ∀ s < t, Lam (withObs m t (fun _ => 1) (fun _ _ => 1)) s ≠ 0 := fun s hs => by
      rw [Lam_withObs m t _ _ s hs]; exact hL s hs
    have h := Lam_mul_prod (withObs m t (fun _ => 1) (fun _ _ => 1)) he t hL' hlast
    rw [prod_congr rfl fun s hs => Lam_withObs m t _ _ s (mem_range.1 hs)] at h
    have hne : ∏ s ∈ range t, Lam m s ≠ 0 := prod_ne_zero_iff.2 fun s hs => hL s (mem_range.1 hs)
    cases t with
    | zero =>
      rw [range_zero, prod_empty, mul_one] at h
      rw [h]
      have hF : ∀ d ∈ range (m.D - 1), ∀ j ∈ range m.n_S,
          F (withObs m 0 (fun _ => 1) (fun _ _ => 1)) 0 d j = m.pi j * m.ds d j 0 := by
        intro d hd j hj
        rw [mem_range] at hd hj
        rw [F_zero]
        have e : emStart (withObs m 0 (fun _ => 1) (fun _ _ => 1)) 0 j = 1 := by simp [emStart, withObs]
        by_cases hok : SegOk (withObs m 0 (fun _ => 1) (fun _ _ => 1)) ⟨0, d, j⟩
        · rw [if_pos hok, e, mul_one]; rfl
        · rw [if_neg hok]
          have : m.hmp = true ∧ j % 2 = 1 ∧ m.event_width ≤ d := by
            by_contra hcon
            apply hok
            refine ⟨hj, hd, fun h1 h2 => ?_⟩
            by_contra h3
            exact hcon ⟨h1, h2, not_lt.1 h3⟩
          rw [((hb this.1).2 j hj this.2.1 d this.2.2 0).1, mul_zero]
      have hS : (withObs m 0 (fun _ => 1) (fun _ _ => 1)).n_S = m.n_S := rfl
      have hD : (withObs m 0 (fun _ => 1) (fun _ _ => 1)).D = m.D := rfl
      rw [hS, hD, sum_congr rfl fun d hd => sum_congr rfl fun j hj => hF d hd j hj, sum_comm]
      rw [sum_congr rfl fun j hj => by rw [← mul_sum, hm.first_dur j (mem_range.1 hj), mul_one]]
      exact hm.pi_sum
    | succ t =>
      have hS : (withObs m (t + 1) (fun _ => 1) (fun _ _ => 1)).n_S = m.n_S := rfl
      have hD : (withObs m (t + 1) (fun _ => 1) (fun _ _ => 1)).D = m.D := rfl
      rw [hS, hD, F_total m hm hb t, ← sum_reach_F, ← prod_Lam m he t hL (by omega)] at h
      exact mul_right_cancel₀ hne (by rw [h, one_mul])
  refine ⟨hone, fun c2 c3 hc => ?_⟩
  have hmono : forwardResid m c2 c3 t ≤ forwardResid m (fun _ => 1) (fun _ _ => 1) t := by
    rw [forwardResid_eq m hb, forwardResid_eq m hb]
    have hLn : ∀ s < t, 0 < Lam m s := fun s hs => lt_of_le_of_ne (Lam_nonneg m hm.toNonNeg s) (hL s hs).symm
    have hP : 0 < ∏ s ∈ range t, Lam m s := prod_pos fun s hs => hLn s (mem_range.1 hs)
    refine le_of_mul_le_mul_right ?_ hP
    have h1 := Lam_mul_prod (withObs m t c2 c3) he t
      (fun s hs => by rw [Lam_withObs m t _ _ s hs]; exact hL s hs) hlast
    have h2 := Lam_mul_prod (withObs m t (fun _ => 1) (fun _ _ => 1)) he t
      (fun s hs => by rw [Lam_withObs m t _ _ s hs]; exact hL s hs) hlast
    rw [prod_congr rfl fun s hs => Lam_withObs m t _ _ s (mem_range.1 hs)] at h1 h2
    rw [h1, h2]
    refine sum_le_sum fun d _ => sum_le_sum fun j hj => ?_
    exact F_withObs_mono m hm.toNonNeg t c2 c3 _ _ (fun j => (hc.1 j).2) (fun k j => (hc.2 k j).2) d j (mem_range.1 hj)
  constructor
  · rw [forwardResid_eq m hb]
    exact Lam_nonneg _ (withObs_nonneg m hm.toNonNeg t c2 c3 hc) t
  · rw [← hone]; exact hmono

theorem tvDemo_proper : Proper tvDemo where
  toNonNeg := tvDemo_nonneg
  pi_sum := by norm_num [tvDemo, Finset.sum_range_succ]
  first_dur := fun j hj => by norm_num [tvDemo, Finset.sum_range_succ, Tables.ds]
  dur := fun j hj t => by
    simp only [tvDemo, Tables.ds, Tables.dcol, if_true]
    change ∑ d ∈ range 2, _ = _
    rw [sum_range_succ, sum_range_one]
    by_cases h : j = 1 ∧ t = 1 <;> norm_num [h]
  trans := fun i hi t => by
    change i < 2 at hi
    have : i = 0 ∨ i = 1 := by omega
    rcases this with rfl | rfl <;> norm_num [tvDemo, Finset.sum_range_succ, Tables.T]

/-- C05, negation with `ends_with_last`: proper tables, all distribution function values equal to 1 (the observation is
the largest possible value), but the pseudo-residual at the last time point is 11/16 instead of 1. -/
theorem forwardResid_boundary_wrong :
    ∃ m : Tables ℝ, Proper m ∧ BumpDur m ∧ m.ends_with_last = true ∧ m.ends_in_last = false ∧ 1 < m.n_T ∧
      (∀ s < m.n_T, Lam m s ≠ 0) ∧ forwardResid m (fun _ => 1) (fun _ _ => 1) 1 = 11 / 16 := by
  refine ⟨tvDemo, tvDemo_proper, tvDemo_bump, rfl, rfl, by decide, ?_, ?_⟩
  · intro s hs
    have : s = 0 ∨ s = 1 := by change s < 2 at hs; omega
    rcases this with rfl | rfl
    · rw [tvDemo_Lam.1]; norm_num
    · rw [tvDemo_Lam.2]; norm_num
  · rw [forwardResid_eq tvDemo tvDemo_bump]
    have : withObs tvDemo 1 (fun _ => 1) (fun _ _ => 1) = tvDemo := withObs_self tvDemo 1
    rw [this, tvDemo_Lam.2]

/-- The hypotheses of the two partial theorems are met by a non-trivial series (three time points, no boundary
switch). -/
example : Proper { tvDemo with n_T := 3, ends_with_last := false } ∧
    BumpDur { tvDemo with n_T := 3, ends_with_last := false } ∧
    Bounded (fun j => if j = 0 then 1 / 3 else 2 / 3) (fun _ _ => 1 / 2) ∧
    Lam { tvDemo with n_T := 3, ends_with_last := false } 0 ≠ 0 := by
  refine ⟨{ tvDemo_proper with }, tvDemo_bump, ⟨fun j => ?_, fun k j => by norm_num⟩, ?_⟩
  · simp only; split_ifs <;> norm_num
  · have : Lam { tvDemo with n_T := 3, ends_with_last := false } 0 = 1 := by
      simp [Lam, lam, lamSum, lamContrib, lamCell, tvDemo, Tables.ds]
    rw [this]; norm_num

/-- Without `hmp`, the emission of the last time point is a factor that depends on the state at that time only. -/
theorem weightUpTo_withObs_factor (m : Tables ℝ) (hh : m.hmp = false) (t : ℕ) (c2 : ℕ → ℝ) (c3 : ℕ → ℕ → ℝ) (l : List Seg)
    (hl : PartialSeg m t l) :
    weightUpTo (withObs m t c2 c3) t l = weightUpTo (withObs m t (fun _ => 1) (fun _ _ => 1)) t l * c2 (stateAt l t) := by
  obtain ⟨hc, hok, h, r, rfl, h0, h1⟩ := hl
  rw [stateAt_head _ _ _ h0]
  have hobs : ∀ (c2 : ℕ → ℝ) (c3 : ℕ → ℕ → ℝ), obsProd (withObs m t c2 c3) t h =
      (∏ u ∈ Finset.Ico h.start t, m.bs2 u h.state) * c2 h.state := by
    intro c2 c3
    unfold obsProd
    rw [min_eq_right h1]
    have hI : Finset.Icc h.start t = insert t (Finset.Ico h.start t) := by
      ext u; simp only [mem_Icc, mem_insert, mem_Ico]; omega
    rw [hI, prod_insert (by simp), mul_comm]
    congr 1
    · apply prod_congr rfl
      intro u hu
      have : ¬ u = t := by have := (mem_Ico.1 hu).2; omega
      simp [obs, withObs, hh, this]
    · simp [obs, withObs, hh]
  have htail : ∀ (c2 c2' : ℕ → ℝ) (c3 c3' : ℕ → ℕ → ℝ), (∀ s ∈ r, s.start + s.dur < t) →
      weightUpTo (withObs m t c2 c3) t r = weightUpTo (withObs m t c2' c3') t r := by
    intro c2 c2' c3 c3' hr
    cases t with
    | zero =>
      cases r with
      | nil => rfl
      | cons p r => exact absurd (hr p (by simp)) (by omega)
    | succ t =>
      rw [weightUpTo_eq_of_end (withObs m (t + 1) c2 c3) t (t + 1) (by omega) r (fun s hs => by have := hr s hs; omega),
        weightUpTo_eq_of_end (withObs m (t + 1) c2' c3') t (t + 1) (by omega) r (fun s hs => by have := hr s hs; omega),
        weightUpTo_withObs m (t + 1) c2 c3 t (by omega), weightUpTo_withObs m (t + 1) c2' c3' t (by omega)]
  have e1 : ∀ (c2 : ℕ → ℝ) (c3 : ℕ → ℕ → ℝ), (withObs m t c2 c3).ds = m.ds := fun _ _ => rfl
  have e2 : ∀ (c2 : ℕ → ℝ) (c3 : ℕ → ℕ → ℝ), (withObs m t c2 c3).T = m.T := fun _ _ => rfl
  have e3 : ∀ (c2 : ℕ → ℝ) (c3 : ℕ → ℕ → ℝ), (withObs m t c2 c3).dcol = m.dcol := fun _ _ => rfl
  have e4 : ∀ (c2 : ℕ → ℝ) (c3 : ℕ → ℕ → ℝ), (withObs m t c2 c3).pi = m.pi := fun _ _ => rfl
  cases r with
  | nil =>
    simp only [weightUpTo]
    rw [hobs, hobs]
    simp only [e1, e4]
    ring
  | cons p r =>
    have hend := chained_end r p hc.2.2
    have hst := hc.1
    simp only [weightUpTo]
    rw [hobs, hobs, htail c2 (fun _ => 1) c3 (fun _ _ => 1) (fun s hs => by have := hend s hs; omega)]
    simp only [e1, e2, e3]
    ring

/-- Memory cell of `mus(t,m,j)` in a Fortran-ordered array of shape `(n_T, M, n_S)`. -/
def musAt (n_T M : ℕ) (mu : ℕ → ℝ) (t sig j : ℕ) : ℝ := mu (t + n_T * (sig + M * j))

/-- C06 with one signal. The value subtracted from the observation is the conditional mean of the signal given the past:
the state means weighted by the joint probability of past and state path, divided by the probability of the past.
Missing for the full claim: more than one signal, see `predictive_mean_wrong_signal`, and the boundary switches. -/
theorem predictive_mean_partial (m : Tables ℝ) (hh : m.hmp = false) (he : m.ends_with_last = false)
    (mu : ℕ → ℝ) (t : ℕ) (ht : t < m.n_T) (hlast : t < m.n_T - 1 ∨ m.ends_in_last = false)
    (hL : ∀ s < t, Lam m s ≠ 0)
    (A : Finset (List Seg)) (hA : ∀ l, l ∈ A ↔ PartialSeg m t l)
    (B : Finset (List Seg)) (hB : ∀ l, l ∈ B ↔ PartialSeg m (t - 1) l) :
    predE m 1 0 mu t =
      (∑ l ∈ A, weightUpTo (withObs m t (fun _ => 1) (fun _ _ => 1)) t l * musAt m.n_T 1 mu t 0 (stateAt l t)) /
        (if t = 0 then 1 else ∑ l ∈ B, weightUpTo m (t - 1) l) := by
  have hb : BumpDur m := fun h => by rw [hh] at h; cases h
  have h := forwardResid_is_conditional_cdf_partial m hb he (musAt m.n_T 1 mu t 0) (fun _ _ => 0) t ht hlast hL A hA B hB
  rw [← sum_congr rfl fun l hl => weightUpTo_withObs_factor m hh t (musAt m.n_T 1 mu t 0) (fun _ _ => 0) l ((hA l).1 hl),
    ← h]
  have hcell : ∀ t prev L, elamCell m 1 0 mu t prev L = residCell m (musAt m.n_T 1 mu t 0) (fun _ _ => 0) t prev L := by
    intro t prev L
    funext d j
    simp only [elamCell, residCell, musAt, hh, Bool.false_eq_true, if_false, zero_add, one_mul]
  cases t with
  | zero => simp only [predE, forwardResid, hcell]
  | succ t => simp only [predE, forwardResid, hcell]

/-- C06, negation with two signals: all means of signal 0 are 0, so its conditional mean is 0, but the code subtracts 1/4,
which it reads from the means of signal 1. -/
theorem predictive_mean_wrong_signal :
    ∃ (m : Tables ℝ) (mu : ℕ → ℝ), Proper m ∧ m.hmp = false ∧ m.ends_with_last = false ∧ m.ends_in_last = false ∧
      1 < m.n_T ∧ (∀ s < 1, Lam m s ≠ 0) ∧ (∀ t < m.n_T, ∀ j, musAt m.n_T 2 mu t 0 j = 0) ∧ predE m 2 0 mu 1 = 1 / 4 := by
  set m : Tables ℝ := { tvDemo with ends_with_last := false } with hm
  have hb : BumpDur m := tvDemo_bump
  have hL0 : Lam m 0 = 1 := by
    simp [Lam, lam, lamSum, lamContrib, lamCell, hm, tvDemo, Tables.ds]
  refine ⟨m, fun k => if (k / 2) % 2 = 1 then 1 else 0, { tvDemo_proper with }, rfl, rfl, rfl, by decide, ?_, ?_, ?_⟩
  · intro s hs
    have : s = 0 := by omega
    rw [this, hL0]; norm_num
  · intro t ht j
    change t < 2 at ht
    have hn : m.n_T = 2 := rfl
    simp only [musAt, hn]
    rw [if_neg]
    have : (t + 2 * (0 + 2 * j)) / 2 = 2 * j := by omega
    rw [this]; omega
  · have hf := fwdLam_eq m hb 0
    have hlam : ∀ d j, j < 2 → fwdLam m 0 d j = 1 / 4 := by
      intro d j hj
      rw [hf.1 d j hj]
      simp [lam, lamCell, hm, tvDemo, Tables.ds]
      norm_num
    simp only [predE]
    rw [hf.2, hL0]
    have hS : m.n_S = 2 := rfl
    have hD : m.D = 3 := rfl
    have hN : m.n_T = 2 := rfl
    have hc : ∀ d j v, sbContrib m 1 d j v = v := by
      intro d j v
      simp [sbContrib, hm, tvDemo]
    have hcell : ∀ d j, d < 2 → j < 2 → elamCell m 2 0 (fun k => if (k / 2) % 2 = 1 then 1 else 0) 1 (fwdLam m 0) 1 d j =
        if j = 1 then (if d = 0 then 1 / 16 else 3 / 16) else 0 := by
      intro d j hd hj
      have hd' : d = 0 ∨ d = 1 := by omega
      have hj' : j = 0 ∨ j = 1 := by omega
      simp only [elamCell, hS, hD, hN, Finset.sum_range_succ, Finset.sum_range_zero, hlam 0 0 (by omega), hlam 0 1 (by omega)]
      rcases hd' with rfl | rfl <;> rcases hj' with rfl | rfl <;>
        norm_num [hm, tvDemo, Tables.T, Tables.ds, Tables.dcol]
    unfold sbLam
    simp only [hS, hD, hc, Finset.sum_range_succ, Finset.sum_range_zero]
    norm_num [hcell 0 0 (by omega) (by omega), hcell 0 1 (by omega) (by omega), hcell 1 0 (by omega) (by omega),
      hcell 1 1 (by omega) (by omega)]

theorem cumResid_eq (r : ℕ → ℝ) (n : ℕ) : cumResid r n = ∑ k ∈ range (n + 1), r k := by
  induction n with
  | zero => simp [cumResid]
  | succ n ih => rw [cumResid, ih, sum_range_succ _ (n + 1)]

theorem sdLoop_eq (r : ℕ → ℝ) (n : ℕ) : sdLoop r n = (∑ k ∈ range (n + 1), r k ^ 2, cumResid r n) := by
  induction n with
  | zero => simp [sdLoop, cumResid]
  | succ n ih =>
    rw [sdLoop, ih, sum_range_succ _ (n + 1)]
    simp only [cumResid]
    rw [add_sub_cancel_left]

/-- C06, standardisation: from the second time point on, the residual is the running sum of the prediction errors divided
by the square root of the running sum of their squares. Missing for the full claim: the first time point, see
`predResid_first_not_standardised`. -/
theorem predResid_standardised_partial (r : ℕ → ℝ) (n : ℕ) (hn : 0 < n) :
    predResid r n = (∑ k ∈ range (n + 1), r k) / Real.sqrt (∑ k ∈ range (n + 1), r k ^ 2) := by
  obtain ⟨n, rfl⟩ : ∃ k, n = k + 1 := ⟨n - 1, by omega⟩
  simp only [predResid]
  rw [sdLoop_eq, cumResid_eq]

/-- C06, negation for the first time point: it keeps the raw prediction error. -/
theorem predResid_first_not_standardised : ∃ r : ℕ → ℝ,
    predResid r 0 = 2 ∧ (∑ k ∈ range (0 + 1), r k) / Real.sqrt (∑ k ∈ range (0 + 1), r k ^ 2) = 1 := by
  refine ⟨fun _ => 2, rfl, ?_⟩
  simp only [zero_add, sum_range_one]
  rw [Real.sqrt_sq (by norm_num)]
  norm_num

end Verif.Hsmm
