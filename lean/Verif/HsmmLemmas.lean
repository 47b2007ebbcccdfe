import Verif.HsmmSpec
import Mathlib.Tactic.Ring
import Mathlib.Tactic.Linarith
import Mathlib.Tactic.Positivity
import Mathlib.Tactic.FieldSimp
import Mathlib.Algebra.BigOperators.Ring.Finset
import Mathlib.Algebra.Order.BigOperators.Group.Finset
import Mathlib.Algebra.Order.BigOperators.Ring.Finset

/-! Helper lemmas for `Verif.Hsmm`: enumeration of partial segmentations and their total weights. -/

namespace Verif.Hsmm

open Finset

variable {R : Type}

/-- `l` is a segmentation of `0..` whose last segment is in state `j`, contains time `t` and lasts `d` more steps. -/
def Part (m : Tables R) (t d j : ℕ) (l : List Seg) : Prop :=
  Chained l ∧ (∀ s ∈ l, SegOk m s) ∧
  ∃ h r, l = h :: r ∧ h.state = j ∧ h.start ≤ t ∧ h.start + h.dur = t + d

instance (m : Tables R) (s : Seg) : Decidable (SegOk m s) := by unfold SegOk; infer_instance

/-- Enumeration of the partial segmentations. -/
def parts (m : Tables R) : ℕ → ℕ → ℕ → Finset (List Seg)
  | 0 => fun d j => if SegOk m ⟨0, d, j⟩ then {[⟨0, d, j⟩]} else ∅
  | t + 1 => fun d j =>
      (if d + 1 ≤ m.D - 2 then parts m t (d + 1) j else ∅) ∪
      (if SegOk m ⟨t + 1, d, j⟩ then
        ((range m.n_S).filter (· ≠ j)).biUnion fun i => (parts m t 0 i).image (List.cons ⟨t + 1, d, j⟩)
       else ∅)

theorem mem_parts (m : Tables R) (t : ℕ) : ∀ d j l, j < m.n_S → (l ∈ parts m t d j ↔ Part m t d j l) := by
  induction t with
  | zero =>
    intro d j l hj
    simp only [parts]
    constructor
    · intro h
      split_ifs at h with hs
      · rw [mem_singleton] at h
        subst h
        refine ⟨rfl, ?_, ⟨0, d, j⟩, [], rfl, rfl, le_rfl, rfl⟩
        intro s hs'
        simp at hs'
        subst hs'; exact hs
      · simp at h
    · rintro ⟨hc, hok, h, r, rfl, rfl, h0, hsum⟩
      have h0' : h.start = 0 := by omega
      cases r with
      | cons p r => have := hc.1; omega
      | nil =>
        have hd : h.dur = d := by omega
        have : h = ⟨0, d, h.state⟩ := by cases h; simp_all
        rw [← this, if_pos (hok h (by simp))]
        simp
  | succ t ih =>
    intro d j l hj
    simp only [parts, mem_union]
    constructor
    · rintro (h | h)
      · split_ifs at h with hd
        · obtain ⟨hc, hok, h', r, rfl, rfl, h0, hsum⟩ := (ih (d + 1) j l hj).1 h
          exact ⟨hc, hok, h', r, rfl, rfl, by omega, by omega⟩
        · simp at h
      · split_ifs at h with hs
        · rw [mem_biUnion] at h
          obtain ⟨i, hi, h⟩ := h
          rw [mem_filter, mem_range] at hi
          rw [mem_image] at h
          obtain ⟨l', hl', rfl⟩ := h
          obtain ⟨hc, hok, h', r, rfl, rfl, h0, hsum⟩ := (ih 0 i l' hi.1).1 hl'
          refine ⟨⟨?_, ?_, hc⟩, ?_, _, _, rfl, rfl, le_rfl, rfl⟩
          · simp; omega
          · exact fun h => hi.2 h.symm
          · intro s hs'
            rcases List.mem_cons.1 hs' with rfl | hs'
            · exact hs
            · exact hok s hs'
        · simp at h
    · rintro ⟨hc, hok, h, r, rfl, rfl, h0, hsum⟩
      rcases Nat.lt_or_ge h.start (t + 1) with hlt | hge
      · left
        have := (hok h (by simp)).2.1
        rw [if_pos (by omega)]
        exact (ih (d + 1) _ _ hj).2 ⟨hc, hok, h, r, rfl, rfl, by omega, by omega⟩
      · right
        have hst : h.start = t + 1 := by omega
        have hd : h.dur = d := by omega
        have heq : h = ⟨t + 1, d, h.state⟩ := by cases h; simp_all
        have hsok := hok h (by simp)
        rw [← heq, if_pos hsok, mem_biUnion]
        cases r with
        | nil => have : h.start = 0 := hc; omega
        | cons p r =>
          obtain ⟨h1, h2, h3⟩ := hc
          have hp := hok p (by simp)
          refine ⟨p.state, ?_, ?_⟩
          · rw [mem_filter, mem_range]; exact ⟨hp.1, fun h => h2 h.symm⟩
          · rw [mem_image]
            exact ⟨p :: r, (ih 0 _ _ hp.1).2 ⟨h3, fun s hs => hok s (by simp [hs]), p, r, rfl, rfl, by omega, by omega⟩, rfl⟩

theorem chained_end : ∀ (r : List Seg) (h : Seg), Chained (h :: r) → ∀ s ∈ h :: r, s.start + s.dur ≤ h.start + h.dur
  | [], h, _, s, hs => by simp at hs; subst hs; exact le_rfl
  | p :: r, h, hc, s, hs => by
    obtain ⟨h1, _, h3⟩ := hc
    rcases List.mem_cons.1 hs with rfl | hs
    · exact le_rfl
    · have := chained_end r p h3 s hs
      omega

theorem obsProd_eq_of_end (m : Tables ℝ) (s : Seg) (t t' : ℕ) (h : s.start + s.dur ≤ t) (ht : t ≤ t') :
    obsProd m t' s = obsProd m t s := by
  unfold obsProd
  rw [min_eq_left h, min_eq_left (h.trans ht)]

theorem weightUpTo_eq_of_end (m : Tables ℝ) (t t' : ℕ) (ht : t ≤ t') :
    ∀ l : List Seg, (∀ s ∈ l, s.start + s.dur ≤ t) → weightUpTo m t' l = weightUpTo m t l
  | [], _ => rfl
  | [s], h => by
    simp only [weightUpTo]
    rw [obsProd_eq_of_end m s t t' (h s (by simp)) ht]
  | s :: p :: r, h => by
    simp only [weightUpTo]
    rw [obsProd_eq_of_end m s t t' (h s (by simp)) ht,
      weightUpTo_eq_of_end m t t' ht (p :: r) (fun s hs => h s (by simp [hs]))]

theorem obsProd_succ (m : Tables ℝ) (s : Seg) (t : ℕ) (h0 : s.start ≤ t) (h1 : t + 1 ≤ s.start + s.dur) :
    obsProd m (t + 1) s = obsProd m t s * obs m s (t + 1) := by
  unfold obsProd
  rw [min_eq_right h1, min_eq_right (by omega : t ≤ s.start + s.dur), Finset.prod_Icc_succ_top (by omega)]

theorem weightUpTo_succ_cont (m : Tables ℝ) (t : ℕ) (h : Seg) (r : List Seg) (hc : Chained (h :: r))
    (h0 : h.start ≤ t) (h1 : t + 1 ≤ h.start + h.dur) :
    weightUpTo m (t + 1) (h :: r) = weightUpTo m t (h :: r) * obs m h (t + 1) := by
  cases r with
  | nil =>
    simp only [weightUpTo]
    rw [obsProd_succ m h t h0 h1]; ring
  | cons p r =>
    have hend := chained_end r p hc.2.2
    have := hc.1
    simp only [weightUpTo]
    rw [obsProd_succ m h t h0 h1, weightUpTo_eq_of_end m t (t + 1) (by omega) (p :: r) (fun s hs => by
      have := hend s hs; omega)]
    ring

theorem weightUpTo_succ_enter (m : Tables ℝ) (t d j : ℕ) (p : Seg) (r : List Seg) (hc : Chained (p :: r))
    (hend : p.start + p.dur = t) :
    weightUpTo m (t + 1) (⟨t + 1, d, j⟩ :: p :: r) =
      weightUpTo m t (p :: r) * m.T p.state j t * (obs m ⟨t + 1, d, j⟩ (t + 1) * m.ds d (m.dcol j) (t + 1)) := by
  have he := chained_end r p hc
  simp only [weightUpTo]
  rw [weightUpTo_eq_of_end m t (t + 1) (by omega) (p :: r) (fun s hs => by have := he s hs; omega)]
  have : obsProd m (t + 1) ⟨t + 1, d, j⟩ = obs m ⟨t + 1, d, j⟩ (t + 1) := by
    unfold obsProd
    simp
  rw [this]
  simp only [Nat.add_sub_cancel]
  ring

/-- Total weight of the partial segmentations of a cell. -/
noncomputable def F (m : Tables ℝ) (t d j : ℕ) : ℝ := ∑ l ∈ parts m t d j, weightUpTo m t l

/-- Emission factor used when state `j` continues at time `t` with `d` remaining steps. -/
def emCont (m : Tables R) (t d j : ℕ) : R :=
  if m.hmp then
    if j % 2 = 1 then m.bs3 t ((m.event_width - 1) - d) j else m.bs3 t 0 j
  else m.bs2 t j

/-- Emission factor used when state `j` is entered at time `t > 0`. -/
def emEnter (m : Tables R) (t j : ℕ) : R :=
  if m.hmp then (if j % 2 = 0 then m.bs3 t 1 j else m.bs3 t 0 j) else m.bs2 t j

/-- Emission factor at time 0. -/
def emStart (m : Tables R) (t j : ℕ) : R := if m.hmp then m.bs3 t 0 j else m.bs2 t j

theorem F_zero (m : Tables ℝ) (d j : ℕ) :
    F m 0 d j = if SegOk m ⟨0, d, j⟩ then m.pi j * m.ds d j 0 * emStart m 0 j else 0 := by
  unfold F
  simp only [parts]
  split_ifs with h
  · simp [weightUpTo, obsProd, obs, emStart]
  · simp

theorem F_succ (m : Tables ℝ) (t d j : ℕ) (hj : j < m.n_S) :
    F m (t + 1) d j =
      (if d + 1 ≤ m.D - 2 then F m t (d + 1) j * emCont m (t + 1) d j else 0) +
      (if SegOk m ⟨t + 1, d, j⟩ then
        (∑ i ∈ range m.n_S, if i = j then 0 else F m t 0 i * m.T i j t) *
          (emEnter m (t + 1) j * m.ds d (m.dcol j) (t + 1))
       else 0) := by
  unfold F
  simp only [parts]
  rw [sum_union]
  · congr 1
    · split_ifs with hd
      · rw [sum_mul]
        apply sum_congr rfl
        intro l hl
        obtain ⟨hc, hok, h, r, rfl, rfl, h0, hsum⟩ := (mem_parts m t _ _ _ hj).1 hl
        rw [weightUpTo_succ_cont m t h r hc h0 (by omega)]
        congr 1
        unfold obs emCont
        have h1 : t + 1 ≠ h.start := by omega
        have h2 : h.start + h.dur - (t + 1) = d := by omega
        simp only [h1, if_false, h2]
      · simp
    · split_ifs with hs
      · rw [sum_biUnion, sum_mul, sum_filter]
        · apply sum_congr rfl
          intro i hi
          rw [mem_range] at hi
          by_cases hij : i = j
          · simp [hij]
          · simp only [hij, ne_eq, not_false_eq_true, if_true, if_false]
            rw [sum_image (by intro a _ b _ hab; exact (List.cons.inj hab).2), sum_mul, sum_mul]
            apply sum_congr rfl
            intro l hl
            obtain ⟨hc, hok, p, r, rfl, rfl, h0, hsum⟩ := (mem_parts m t _ _ _ hi).1 hl
            rw [weightUpTo_succ_enter m t d j p r hc hsum]
            congr 2
            unfold obs emEnter
            simp
        · intro i hi i' hi' hne
          simp only [coe_filter, mem_range, Set.mem_ofPred_eq] at hi hi'
          rw [Function.onFun, disjoint_left]
          intro l hl hl'
          rw [mem_image] at hl hl'
          obtain ⟨a, ha, rfl⟩ := hl
          obtain ⟨b, hb, hab⟩ := hl'
          have : b = a := (List.cons.inj hab).2
          subst this
          obtain ⟨_, _, p, r, rfl, rfl, _, _⟩ := (mem_parts m t _ _ _ hi.1).1 ha
          obtain ⟨_, _, p', r', heq, rfl, _, _⟩ := (mem_parts m t _ _ _ hi'.1).1 hb
          apply hne
          rw [(List.cons.inj heq).1]
      · simp
  · rw [disjoint_left]
    intro l h1 h2
    split_ifs at h1 with hd
    · obtain ⟨hc, hok, h, r, rfl, rfl, h0, hsum⟩ := (mem_parts m t _ _ _ hj).1 h1
      split_ifs at h2 with hs
      · rw [mem_biUnion] at h2
        obtain ⟨i, hi, h2⟩ := h2
        rw [mem_image] at h2
        obtain ⟨l', _, h2⟩ := h2
        have := (List.cons.inj h2).1
        rw [← this] at h0
        simp at h0
      · simp at h2
    · simp at h1

theorem F_eq_zero_of_skip (m : Tables ℝ) (t d j : ℕ) (hj : j < m.n_S) (h : m.hmp = true ∧ j % 2 = 1 ∧ m.event_width ≤ d) :
    F m t d j = 0 := by
  unfold F
  apply sum_eq_zero
  intro l hl
  obtain ⟨hc, hok, h', r, rfl, rfl, h0, hsum⟩ := (mem_parts m t _ _ _ hj).1 hl
  have := (hok h' (by simp)).2.2 h.1 h.2.1
  omega

/-- Cells that the code computes. -/
def Live (m : Tables R) (t d : ℕ) : Prop := t = 0 ∨ t + d < m.n_T ∨ m.ends_with_last = false

theorem lam_zero_eq (m : Tables ℝ) (d j : ℕ) (hj : j < m.n_S) (hd : d < m.D - 1) : lam m 0 d j = F m 0 d j := by
  rw [F_zero]
  simp only [lam, lamCell]
  by_cases hskip : m.hmp = true ∧ j % 2 = 1 ∧ m.event_width ≤ d
  · rw [if_pos hskip, if_neg]
    intro h
    have := h.2.2 hskip.1 hskip.2.1
    simp at this; omega
  · have hok : SegOk m ⟨0, d, j⟩ := by
      refine ⟨hj, hd, ?_⟩
      intro h1 h2
      by_contra h3
      exact hskip ⟨h1, h2, by simpa using h3⟩
    rw [if_neg hskip, if_pos hok]
    simp only [if_true]
    unfold emStart
    split_ifs <;> ring

/-- One step of the recursion: scaling factors multiply through. -/
theorem lam_succ_eq (m : Tables ℝ) (t : ℕ) (P : ℝ)
    (ih : ∀ d j, j < m.n_S → d < m.D - 1 → Live m t d → lam m t d j * P = F m t d j)
    (hL : Lam m t ≠ 0) (d j : ℕ) (hj : j < m.n_S) (hd : d < m.D - 1) (hlive : Live m (t + 1) d) :
    lam m (t + 1) d j * (P * Lam m t) = F m (t + 1) d j := by
  by_cases hskip : m.hmp = true ∧ j % 2 = 1 ∧ m.event_width ≤ d
  · rw [F_eq_zero_of_skip m _ _ _ hj hskip]
    simp only [lam, lamCell, if_pos hskip, zero_mul]
  · have hok : SegOk m ⟨t + 1, d, j⟩ := by
      refine ⟨hj, hd, ?_⟩
      intro h1 h2
      by_contra h3
      exact hskip ⟨h1, h2, by simpa using h3⟩
    have hlive' : t + 1 + d < m.n_T ∨ m.ends_with_last = false := by
      rcases hlive with h | h | h
      · omega
      · exact Or.inl h
      · exact Or.inr h
    rw [F_succ m t d j hj, if_pos hok]
    simp only [lam, lamCell, if_neg hskip, if_pos hlive', Nat.add_eq_zero_iff, one_ne_zero, and_false, if_false,
      Nat.add_sub_cancel]
    change _ / Lam m t * (P * Lam m t) = _
    rw [div_mul_eq_mul_div, mul_comm P, ← mul_assoc, mul_right_comm, mul_div_assoc, div_self hL, mul_one, add_mul]
    congr 1
    · by_cases hd1 : d + 1 ≤ m.D - 2
      · have e := ih (d + 1) j hj (by omega) (by
          rcases hlive' with h | h
          · right; left; omega
          · right; right; exact h)
        rw [if_pos hd1, if_pos hd1, ← e]
        unfold emCont
        by_cases h1 : m.hmp = true
        · by_cases h2 : j % 2 = 1
          · have h3 : d ≤ m.event_width - 1 := by
              by_contra h3
              exact hskip ⟨h1, h2, by omega⟩
            simp only [h1, h2, h3, if_true]; ring
          · simp only [h1, h2, if_true, if_false]; ring
        · simp only [h1, if_false, Bool.false_eq_true]; ring
      · rw [if_neg hd1, if_neg hd1, zero_mul]
    · have e : ∀ i, i < m.n_S → lam m t 0 i * P = F m t 0 i := by
        intro i hi
        apply ih 0 i hi (by omega)
        rcases hlive' with h | h
        · right; left; omega
        · right; right; exact h
      have e2 : (∑ i ∈ range m.n_S, if i = j then 0 else F m t 0 i * m.T i j t) =
          (∑ i ∈ range m.n_S, if i = j then 0 else lam m t 0 i * m.T i j t) * P := by
        rw [sum_mul]
        apply sum_congr rfl
        intro i hi
        rw [mem_range] at hi
        rw [← e i hi]
        split_ifs
        · simp
        · ring
      rw [e2]
      unfold emEnter
      split_ifs <;> ring

theorem lam_eq (m : Tables ℝ) (t : ℕ) (hL : ∀ s < t, Lam m s ≠ 0) :
    ∀ d j, j < m.n_S → d < m.D - 1 → Live m t d → lam m t d j * ∏ s ∈ range t, Lam m s = F m t d j := by
  induction t with
  | zero =>
    intro d j hj hd _
    rw [range_zero, prod_empty, mul_one, lam_zero_eq m d j hj hd]
  | succ t ih =>
    intro d j hj hd hl
    rw [prod_range_succ]
    exact lam_succ_eq m t _ (ih fun s hs => hL s (by omega)) (hL t (by omega)) d j hj hd hl

/-- Cells whose value enters the final normaliser. -/
def FinalCell (m : Tables R) (d j : ℕ) : Prop :=
  (m.ends_with_last = true → d = 0) ∧ (m.ends_in_last = true → j = m.n_S - 1)

instance (m : Tables R) (d j : ℕ) : Decidable (FinalCell m d j) := by unfold FinalCell; infer_instance

/-- All admissible segmentations. -/
def allSegs (m : Tables R) : Finset (List Seg) :=
  ((range (m.D - 1) ×ˢ range m.n_S).filter fun c => FinalCell m c.1 c.2).biUnion
    fun c => parts m (m.n_T - 1) c.1 c.2

theorem mem_allSegs (m : Tables R) (hT : 0 < m.n_T) (l : List Seg) : l ∈ allSegs m ↔ Admissible m l := by
  unfold allSegs
  simp only [mem_biUnion, mem_filter, mem_product, mem_range]
  constructor
  · rintro ⟨⟨d, j⟩, ⟨⟨hd, hj⟩, hf1, hf2⟩, hl⟩
    obtain ⟨hc, hok, h, r, rfl, rfl, h0, hsum⟩ := (mem_parts m _ _ _ _ hj).1 hl
    refine ⟨hc, hok, h, r, rfl, by omega, by omega, ?_, hf2⟩
    intro he
    have := hf1 he
    simp only at this hsum
    omega
  · rintro ⟨hc, hok, h, r, rfl, h0, h1, h2, h3⟩
    have hs := hok h (by simp)
    refine ⟨(h.start + h.dur - (m.n_T - 1), h.state), ⟨⟨?_, hs.1⟩, ?_, h3⟩, ?_⟩
    · have := hs.2.1; simp only; omega
    · intro he
      have := h2 he
      simp only; omega
    · exact (mem_parts m _ _ _ _ hs.1).2 ⟨hc, hok, h, r, rfl, rfl, by omega, by omega⟩

theorem sum_allSegs (m : Tables ℝ) :
    ∑ l ∈ allSegs m, weight m l =
      ∑ d ∈ range (m.D - 1), ∑ j ∈ range m.n_S, if FinalCell m d j then F m (m.n_T - 1) d j else 0 := by
  unfold allSegs
  rw [sum_biUnion, sum_filter, sum_product]
  · rfl
  · rintro ⟨d, j⟩ hc ⟨d', j'⟩ hc' hne
    simp only [coe_filter, mem_product, mem_range, Set.mem_ofPred_eq] at hc hc'
    rw [Function.onFun, disjoint_left]
    intro l hl hl'
    obtain ⟨_, _, h, r, rfl, rfl, _, hs⟩ := (mem_parts m _ _ _ _ hc.1.2).1 hl
    obtain ⟨_, _, h', r', heq, rfl, _, hs'⟩ := (mem_parts m _ _ _ _ hc'.1.2).1 hl'
    have e := (List.cons.inj heq).1
    subst e
    apply hne
    simp only at hs hs' ⊢
    congr 1
    omega

theorem lamContrib_final (m : Tables ℝ) (d j : ℕ) (v : ℝ)
    (hv : m.hmp = true ∧ j % 2 = 1 ∧ m.event_width ≤ d → v = 0) :
    lamContrib m (m.n_T - 1) d j v = if FinalCell m d j then v else 0 := by
  have hF : FinalCell m d j ↔ (m.ends_with_last = true → d = 0) ∧ (m.ends_in_last = true → j = m.n_S - 1) := Iff.rfl
  unfold lamContrib
  by_cases hskip : m.hmp = true ∧ j % 2 = 1 ∧ m.event_width ≤ d
  · rw [if_pos hskip, hv hskip, ite_self]
  · rw [if_neg hskip]
    cases h1 : m.ends_with_last <;> cases h2 : m.ends_in_last <;> simp [hF, h1, h2]
    by_cases hd : d = 0 <;> simp [hd]

theorem Lam_final_mul (m : Tables ℝ) (hT : 0 < m.n_T) (hL : ∀ s < m.n_T - 1, Lam m s ≠ 0) :
    Lam m (m.n_T - 1) * ∏ s ∈ range (m.n_T - 1), Lam m s = ∑ l ∈ allSegs m, weight m l := by
  rw [sum_allSegs]
  unfold Lam lamSum
  rw [sum_mul]
  apply sum_congr rfl
  intro d hd
  rw [sum_mul]
  apply sum_congr rfl
  intro j hj
  rw [mem_range] at hd hj
  rw [lamContrib_final]
  · split_ifs with hf
    · refine lam_eq m (m.n_T - 1) hL d j hj hd ?_
      by_cases he : m.ends_with_last = true
      · have := hf.1 he
        right; left; omega
      · right; right; simpa using he
    · simp
  · intro h
    cases hn : m.n_T - 1 with
    | zero => simp only [lam, lamCell, if_pos h]
    | succ t => simp only [lam, lamCell, if_pos h]

theorem lam_nonneg_aux (m : Tables ℝ) (t : ℕ) (prev : ℕ → ℕ → ℝ) (L : ℝ) (hm : NonNeg m)
    (hp : ∀ d j, 0 ≤ prev d j) (hL : 0 ≤ L) (d j : ℕ) : 0 ≤ lamCell m t prev L d j := by
  have hds : ∀ d j t, 0 ≤ m.ds d j t := by
    intro d j t; unfold Tables.ds; split_ifs; exacts [hm.ds3 _ _ _, hm.ds2 _ _]
  have hT : ∀ d j t, 0 ≤ m.T d j t := by
    intro d j t; unfold Tables.T; split_ifs; exacts [hm.T3 _ _ _, hm.T2 _ _]
  have hs : 0 ≤ ∑ i ∈ Finset.range m.n_S, if i = j then 0 else prev 0 i * m.T i j (t - 1) := by
    apply sum_nonneg; intro i _; split_ifs
    · exact le_rfl
    · exact mul_nonneg (hp _ _) (hT _ _ _)
  unfold lamCell
  have h2 := hm.bs2
  have h3 := hm.bs3
  have hpi := hm.pi
  by_cases c0 : m.hmp = true ∧ j % 2 = 1 ∧ m.event_width ≤ d
  · rw [if_pos c0]
  rw [if_neg c0]
  by_cases c1 : t = 0
  · rw [if_pos c1]
    split_ifs
    · exact mul_nonneg (mul_nonneg (hpi _) (h3 _ _ _)) (hds _ _ _)
    · exact mul_nonneg (mul_nonneg (hpi _) (h2 _ _)) (hds _ _ _)
  rw [if_neg c1]
  by_cases c2 : t + d < m.n_T ∨ m.ends_with_last = false
  · rw [if_pos c2]
    refine div_nonneg (add_nonneg ?_ ?_) hL
    · split_ifs
      · exact mul_nonneg (hp _ _) (h3 _ _ _)
      · exact le_rfl
      · exact mul_nonneg (hp _ _) (h3 _ _ _)
      · exact mul_nonneg (hp _ _) (h2 _ _)
      · exact le_rfl
    · split_ifs
      · exact mul_nonneg hs (mul_nonneg (h3 _ _ _) (hds _ _ _))
      · exact mul_nonneg hs (mul_nonneg (h3 _ _ _) (hds _ _ _))
      · exact mul_nonneg hs (mul_nonneg (h2 _ _) (hds _ _ _))
  · rw [if_neg c2]

theorem lamSum_nonneg (m : Tables ℝ) (t : ℕ) (v : ℕ → ℕ → ℝ) (hv : ∀ d j, 0 ≤ v d j) : 0 ≤ lamSum m t v := by
  unfold lamSum
  apply sum_nonneg; intro d _
  apply sum_nonneg; intro j _
  unfold lamContrib
  split_ifs
  all_goals first | exact hv _ _ | exact le_rfl

theorem lam_nonneg (m : Tables ℝ) (hm : NonNeg m) (t d j : ℕ) : 0 ≤ lam m t d j := by
  induction t generalizing d j with
  | zero => exact lam_nonneg_aux m 0 _ _ hm (fun _ _ => le_rfl) le_rfl d j
  | succ t ih => exact lam_nonneg_aux m (t + 1) _ _ hm ih (lamSum_nonneg m t _ ih) d j

theorem Lam_nonneg (m : Tables ℝ) (hm : NonNeg m) (t : ℕ) : 0 ≤ Lam m t :=
  lamSum_nonneg m t _ (lam_nonneg m hm t)

/-- A zero normaliser before the last time point means that no partial segmentation has positive weight. -/
theorem F_zero_of_Lam_zero (m : Tables ℝ) (hm : NonNeg m) (t : ℕ) (ht : t < m.n_T - 1) (hL : ∀ s < t, Lam m s ≠ 0)
    (h0 : Lam m t = 0) : ∀ d j, j < m.n_S → d < m.D - 1 → Live m t d → F m t d j = 0 := by
  intro d j hj hd hl
  rw [← lam_eq m t hL d j hj hd hl]
  by_cases hskip : m.hmp = true ∧ j % 2 = 1 ∧ m.event_width ≤ d
  · have := F_eq_zero_of_skip m t d j hj hskip
    rw [lam_eq m t hL d j hj hd hl, this]
  · have hz : lam m t d j = 0 := by
      unfold Lam lamSum at h0
      have hc : ∀ d j, 0 ≤ lamContrib m t d j (lam m t d j) := by
        intro d j
        have := lam_nonneg m hm t d j
        unfold lamContrib
        split_ifs
        all_goals first | exact this | exact le_rfl
      have h1 := (sum_eq_zero_iff_of_nonneg (fun d _ => sum_nonneg fun j _ => hc d j)).1 h0 d (mem_range.2 hd)
      have h2 := (sum_eq_zero_iff_of_nonneg (fun j _ => hc d j)).1 h1 j (mem_range.2 hj)
      unfold lamContrib at h2
      rw [if_neg hskip, if_pos (Or.inl ht), if_pos (Or.inl ht)] at h2
      exact h2
    rw [hz, zero_mul]

theorem F_zero_succ (m : Tables ℝ) (t : ℕ)
    (h : ∀ d j, j < m.n_S → d < m.D - 1 → Live m t d → F m t d j = 0) :
    ∀ d j, j < m.n_S → d < m.D - 1 → Live m (t + 1) d → F m (t + 1) d j = 0 := by
  intro d j hj hd hl
  have hl' : t + 1 + d < m.n_T ∨ m.ends_with_last = false := by
    rcases hl with h | h | h
    · omega
    · exact Or.inl h
    · exact Or.inr h
  have hs : (∑ i ∈ range m.n_S, if i = j then 0 else F m t 0 i * m.T i j t) = 0 := by
    apply sum_eq_zero
    intro i hi
    rw [mem_range] at hi
    split_ifs
    · rfl
    · rw [h 0 i hi (by omega) (by rcases hl' with h | h; exacts [Or.inr (Or.inl (by omega)), Or.inr (Or.inr h)]), zero_mul]
  rw [F_succ m t d j hj, hs]
  simp only [zero_mul, ite_self, add_zero]
  split_ifs with hd1
  · rw [h (d + 1) j hj (by omega) (by rcases hl' with h | h; exacts [Or.inr (Or.inl (by omega)), Or.inr (Or.inr h)]), zero_mul]
  · rfl

theorem sum_zero_of_Lam_zero (m : Tables ℝ) (hm : NonNeg m) (t : ℕ) (ht : t < m.n_T - 1) (hL : ∀ s < t, Lam m s ≠ 0)
    (h0 : Lam m t = 0) : ∑ l ∈ allSegs m, weight m l = 0 := by
  have key : ∀ k, ∀ d j, j < m.n_S → d < m.D - 1 → Live m (t + k) d → F m (t + k) d j = 0 := by
    intro k
    induction k with
    | zero => exact F_zero_of_Lam_zero m hm t ht hL h0
    | succ k ih => exact F_zero_succ m (t + k) ih
  have e : m.n_T - 1 = t + (m.n_T - 1 - t) := by omega
  rw [sum_allSegs]
  apply sum_eq_zero; intro d hd
  apply sum_eq_zero; intro j hj
  rw [mem_range] at hd hj
  split_ifs with hf
  · rw [e]
    apply key _ d j hj hd
    rw [← e]
    by_cases he : m.ends_with_last = true
    · have := hf.1 he
      right; left; omega
    · right; right; simpa using he
  · rfl

theorem Lam_pos_of_sum_pos (m : Tables ℝ) (hm : NonNeg m)
    (hpos : 0 < ∑ l ∈ allSegs m, weight m l) (t : ℕ) (ht : t < m.n_T - 1) : Lam m t ≠ 0 := by
  induction t using Nat.strong_induction_on with
  | _ t ih =>
    intro h0
    have := sum_zero_of_Lam_zero m hm t ht (fun s hs => ih s hs (by omega)) h0
    rw [this] at hpos
    exact lt_irrefl _ hpos

end Verif.Hsmm
