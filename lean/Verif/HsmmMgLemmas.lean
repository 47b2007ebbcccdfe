import Verif.HsmmMgModel
import Verif.HsmmFam
import Verif.MGauss

/-!
Lemmas for property C120.
-/

namespace Verif.HMg

open Finset Hsmm HFam

/-! ### Lists made of segments -/

/-- A segment of the raw gradient: own entries, entries of a shared formula, entries of the precision matrix. -/
structure Seg where
  own : List ℝ
  sh : Option (Key × List ℝ)
  th : List ℝ

def Seg.shl (s : Seg) : List ℝ := (s.sh.map (·.2)).getD []

def Seg.all (s : Seg) : List ℝ := s.own ++ (s.shl ++ s.th)

def gdup : List Seg → ℕ → List (Key × List ℕ)
  | [], _ => []
  | s :: r, tot =>
    match s.sh with
    | some e => (e.1, List.range' (tot + s.own.length) e.2.length) :: gdup r (tot + s.all.length)
    | none => gdup r (tot + s.all.length)

def gth : List Seg → ℕ → List ℕ
  | [], _ => []
  | s :: r, tot => List.range' (tot + s.own.length + s.shl.length) s.th.length ++ gth r (tot + s.all.length)

theorem gdup_ge (S : List Seg) : ∀ tot, ∀ i ∈ (gdup S tot).flatMap (·.2), tot ≤ i := by
  induction S with
  | nil => intro tot i hi; simp [gdup] at hi
  | cons s S ih =>
    intro tot i hi
    unfold gdup at hi
    cases hs : s.sh with
    | none =>
      rw [hs] at hi
      have := ih _ i hi
      omega
    | some e =>
      rw [hs] at hi
      simp only [List.flatMap_cons, List.mem_append] at hi
      rcases hi with hi | hi
      · have := (List.mem_range'_1.1 hi).1
        omega
      · have := ih _ i hi
        omega

theorem gth_ge (S : List Seg) : ∀ tot, ∀ i ∈ gth S tot, tot ≤ i := by
  induction S with
  | nil => intro tot i hi; simp [gth] at hi
  | cons s S ih =>
    intro tot i hi
    unfold gth at hi
    rw [List.mem_append] at hi
    rcases hi with hi | hi
    · have := (List.mem_range'_1.1 hi).1
      omega
    · have := ih _ i hi
      omega

theorem gth_map (R : List ℝ) (S : List Seg) : ∀ P : List ℝ,
    (gth S P.length).map (fun i => (P ++ (S.flatMap Seg.all ++ R)).getD i 0) = S.flatMap Seg.th := by
  induction S with
  | nil => intro P; simp [gth]
  | cons s S ih =>
    intro P
    unfold gth
    rw [List.map_append]
    have ih' := ih (P ++ s.all)
    rw [List.length_append] at ih'
    have e : P ++ ((s :: S).flatMap Seg.all ++ R) = P ++ s.all ++ (S.flatMap Seg.all ++ R) := by
      simp [List.flatMap_cons]
    rw [e, ih', List.flatMap_cons]
    congr 1
    have h1 := map_getD_range' (P ++ s.own ++ s.shl) s.th (S.flatMap Seg.all ++ R)
    simp only [List.length_append] at h1
    have e2 : P ++ s.all ++ (S.flatMap Seg.all ++ R) = P ++ s.own ++ s.shl ++ (s.th ++ (S.flatMap Seg.all ++ R)) := by
      simp [Seg.all]
    rw [e2]
    exact h1

theorem gdup_sum (k : Key) (c : ℕ) (R : List ℝ) (S : List Seg) (hS : ∀ s ∈ S, ∀ e ∈ s.sh, e.1 = k → c < e.2.length) : ∀ P : List ℝ,
    (((gdup S P.length).filter fun e => e.1 = k).map fun e => (P ++ (S.flatMap Seg.all ++ R)).getD (e.2.getD c 0) 0).sum =
    (((S.filterMap Seg.sh).filter fun e => e.1 = k).map fun e => e.2.getD c 0).sum := by
  induction S with
  | nil => intro P; simp [gdup]
  | cons s S ih =>
    intro P
    have ih' := ih (fun s' hs' => hS s' (List.mem_cons_of_mem _ hs')) (P ++ s.all)
    rw [List.length_append] at ih'
    have e : P ++ ((s :: S).flatMap Seg.all ++ R) = P ++ s.all ++ (S.flatMap Seg.all ++ R) := by
      simp [List.flatMap_cons]
    rw [e]
    unfold gdup
    cases hs : s.sh with
    | none =>
      rw [List.filterMap_cons, hs]
      exact ih'
    | some e0 =>
      rw [List.filterMap_cons, hs]
      dsimp only
      by_cases hk : e0.1 = k
      · have hc := hS s List.mem_cons_self e0 (by rw [hs]; rfl) hk
        rw [List.filter_cons_of_pos (by simpa using hk), List.map_cons, List.sum_cons, ih',
          List.filter_cons_of_pos (by simpa using hk), List.map_cons, List.sum_cons]
        congr 1
        dsimp only
        have e1 : (List.range' (P.length + s.own.length) e0.2.length).getD c 0 = P.length + s.own.length + c := by
          rw [List.getD_eq_getElem?_getD, List.getElem?_range' hc]
          simp
        rw [e1]
        have e2 : P ++ s.all ++ (S.flatMap Seg.all ++ R) = (P ++ s.own) ++ (e0.2 ++ (s.th ++ (S.flatMap Seg.all ++ R))) := by
          simp [Seg.all, Seg.shl, hs]
        rw [e2, List.getD_eq_getElem?_getD, List.getElem?_append_right (by simp only [List.length_append]; omega),
          List.getD_eq_getElem?_getD]
        have e3 : P.length + s.own.length + c - (P ++ s.own).length = c := by simp only [List.length_append]; omega
        rw [e3, List.getElem?_append_left hc]
      · rw [List.filter_cons_of_neg (by simpa using hk), List.filter_cons_of_neg (by simpa using hk)]
        exact ih'

theorem g_rest (R : List ℝ) (S : List Seg) : ∀ P : List ℝ,
    ((List.range' P.length (S.flatMap Seg.all ++ R).length).filter fun i =>
      i ∉ (gdup S P.length).flatMap (·.2) ++ gth S P.length).map (fun i => (P ++ (S.flatMap Seg.all ++ R)).getD i 0) =
    S.flatMap Seg.own ++ R := by
  induction S with
  | nil =>
    intro P
    have := map_getD_range' P R []
    simp only [List.append_nil] at this
    simpa [gdup, gth] using this
  | cons s S ih =>
    intro P
    set rest := S.flatMap Seg.all ++ R with hrest
    have ih' := ih (P ++ s.all)
    have hassoc : (s :: S).flatMap Seg.all ++ R = s.own ++ ((s.shl ++ s.th) ++ rest) := by
      simp [List.flatMap_cons, hrest, Seg.all]
    have hl2 : (P ++ s.all).length = P.length + s.own.length + (s.shl.length + s.th.length) := by simp [Seg.all]; omega
    rw [hassoc, List.length_append, List.length_append, ← List.range'_append_1, ← List.range'_append_1, List.filter_append,
      List.filter_append, List.map_append, List.map_append, List.flatMap_cons, List.append_assoc s.own (S.flatMap Seg.own), List.length_append]
    have hmem : ∀ i, i ∈ (gdup (s :: S) P.length).flatMap (·.2) ++ gth (s :: S) P.length ↔
        (P.length + s.own.length ≤ i ∧ i < P.length + s.own.length + (s.shl.length + s.th.length)) ∨
        i ∈ (gdup S (P ++ s.all).length).flatMap (·.2) ++ gth S (P ++ s.all).length := by
      intro i
      have ht : i ∈ gth (s :: S) P.length ↔ (P.length + s.own.length + s.shl.length ≤ i ∧
          i < P.length + s.own.length + s.shl.length + s.th.length) ∨ i ∈ gth S (P ++ s.all).length := by
        conv_lhs => unfold gth
        rw [List.mem_append, List.mem_range'_1, List.length_append]
      have hd : i ∈ (gdup (s :: S) P.length).flatMap (·.2) ↔ (P.length + s.own.length ≤ i ∧
          i < P.length + s.own.length + s.shl.length) ∨ i ∈ (gdup S (P ++ s.all).length).flatMap (·.2) := by
        conv_lhs => unfold gdup
        cases hs : s.sh with
        | none =>
          have : s.shl.length = 0 := by simp [Seg.shl, hs]
          rw [this, List.length_append]
          constructor
          · exact Or.inr
          · rintro (h | h)
            · omega
            · exact h
        | some e =>
          have : s.shl.length = e.2.length := by simp [Seg.shl, hs]
          rw [this, List.length_append]
          dsimp only
          rw [List.flatMap_cons, List.mem_append, List.mem_range'_1]
      rw [List.mem_append, List.mem_append, ht, hd]
      constructor
      · rintro ((h | h) | (h | h))
        · left; omega
        · right; left; exact h
        · left; omega
        · right; right; exact h
      · rintro (h | h | h)
        · by_cases h2 : i < P.length + s.own.length + s.shl.length
          · left; left; omega
          · right; left; omega
        · left; right; exact h
        · right; right; exact h
    have hge : ∀ i ∈ (gdup S (P ++ s.all).length).flatMap (·.2) ++ gth S (P ++ s.all).length, (P ++ s.all).length ≤ i := by
      intro i hi
      rcases List.mem_append.1 hi with h | h
      · exact gdup_ge S _ i h
      · exact gth_ge S _ i h
    congr 1
    · rw [List.filter_eq_self.2]
      · exact map_getD_range' P s.own _
      · intro i hi
        have hi' := List.mem_range'_1.1 hi
        simp only [decide_eq_true_eq]
        rw [hmem i]
        rintro (h1 | h1)
        · omega
        · have := hge i h1
          rw [hl2] at this
          omega
    · have hmid : (List.range' (P.length + s.own.length) (s.shl.length + s.th.length)).filter (fun i =>
          i ∉ (gdup (s :: S) P.length).flatMap (·.2) ++ gth (s :: S) P.length) = [] := by
        rw [List.filter_eq_nil_iff]
        intro i hi
        have hi' := List.mem_range'_1.1 hi
        simp only [decide_eq_true_eq, not_not]
        rw [hmem i]
        exact Or.inl hi'
      have hP2 : P ++ (s.own ++ (s.shl ++ s.th ++ rest)) = P ++ s.all ++ rest := by simp [Seg.all]
      rw [hmid, List.map_nil, List.nil_append, hP2, ← ih', hl2]
      congr 1
      apply List.filter_congr
      intro i hi
      have hi' := List.mem_range'_1.1 hi
      rw [decide_eq_decide, not_iff_not, hmem i, hl2]
      constructor
      · rintro (h1 | h1)
        · omega
        · exact h1
      · exact Or.inr

end Verif.HMg
