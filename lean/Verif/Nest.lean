import Verif.NestLemmas
import Mathlib.Tactic.FinCases

/-!
# Nested smooth terms (C103)

A formula such as `f(["x"]) + f(["z"]) + f(["x","z"], te=True)` contains functions of `x` twice. `Formula` looks for such
terms and drops coefficients of the larger ones.
-/

namespace Verif.Nest

open Finset (range)
open Matrix

/-- Smooth terms that are looked at: all but the `fs` terms. -/
abbrev looked (all : List NTerm) : List NTerm := all.filter fun t => ! t.isFs

/-- The decompositions used for a term and level are what Eigen promises. -/
structure QrOk {N : ℕ} (qr1 : List (Col N) → Matrix (Fin N) (Fin N) ℝ) (qr2 : ∀ n : ℕ, List (Col n) → Piv) (X1 X2 : List (Col N)) : Prop where
  first : Qr1Spec X1 (qr1 X1)
  second : PivSpec (X2.map fun v => lower X1.length ((qr1 X1)ᵀ *ᵥ v)) (qr2 _ (X2.map fun v => lower X1.length ((qr1 X1)ᵀ *ᵥ v)))

/-- Pivot that Eigen ranks last, and the threshold it is compared with. -/
def PivotOk {N : ℕ} (qr1 : List (Col N) → Matrix (Fin N) (Fin N) ℝ) (qr2 : ∀ n : ℕ, List (Col n) → Piv) (tol : ℝ) (X1 X2 : List (Col N)) : Prop :=
  let p := qr2 _ (X2.map fun v => lower X1.length ((qr1 X1)ᵀ *ᵥ v))
  ∀ h : 0 < N, p.rank = 0 ∨ |((qr1 X1)ᵀ *ᵥ X1.getD 0 0) ⟨0, h⟩| * tol ≤ |p.R (p.rank - 1) (p.rank - 1)|

/-- The terms a term is compared with: those with fewer variables, or earlier with as many, that share a name with it. -/
theorem compared_iff (ts : List NTerm) (o b i : ℕ) : i ∈ compared ts o b ↔ i < ts.length ∧ (sz ts i < sz ts o ∨ (sz ts i = sz ts o ∧ i < o)) ∧
    ∃ v ∈ ext (ts.getD i ⟨[], none, none, none, true⟩), v ∈ own (ts.getD o ⟨[], none, none, none, true⟩) b := by
  simp only [compared, List.mem_append, List.mem_filter, List.mem_range, decide_eq_true_eq, shares, List.any_eq_true, List.contains_iff_mem, sz]
  constructor
  · rintro (⟨h1, h2, h3⟩ | ⟨h1, h2, h3, h4⟩)
    · exact ⟨h1, Or.inl h2, h3⟩
    · exact ⟨h1, Or.inr ⟨h2, h3⟩, h4⟩
  · rintro ⟨h1, h2 | h2, h3⟩
    · exact Or.inl ⟨h1, h2, h3⟩
    · exact Or.inr ⟨h1, h2.1, h2.2, h3⟩

/-- Without `by`, `binary` and `by_cont` names are variables. -/
theorem compared_plain (ts : List NTerm) (hp : ∀ t ∈ ts, t.byLevels = none ∧ t.binary = none ∧ t.byCont = none) (o i : ℕ) (ho : o < ts.length) :
    i ∈ compared ts o 0 ↔ ∃ hi : i < ts.length, (ts[i].vars.length < ts[o].vars.length ∨ (ts[i].vars.length = ts[o].vars.length ∧ i < o)) ∧
      ∃ v ∈ ts[i].vars, v ∈ ts[o].vars := by
  have he : ∀ t ∈ ts, ext t = t.vars := by
    intro t ht
    obtain ⟨h1, h2, h3⟩ := hp t ht
    unfold ext ext1 suffix
    simp [h1, h2, h3]
  have hw : ∀ t ∈ ts, own t 0 = t.vars := by
    intro t ht
    rw [own, if_neg, he t ht]
    unfold nBy
    rw [(hp t ht).1]
    simp
  rw [compared_iff]
  constructor
  · rintro ⟨h1, h2, v, h3, h4⟩
    rw [List.getD_eq_getElem _ _ h1, he _ (List.getElem_mem h1)] at h3
    rw [List.getD_eq_getElem _ _ ho, hw _ (List.getElem_mem ho)] at h4
    unfold sz at h2
    rw [List.getD_eq_getElem _ _ h1, List.getD_eq_getElem _ _ ho] at h2
    exact ⟨h1, h2, v, h3, h4⟩
  · rintro ⟨h1, h2, v, h3, h4⟩
    unfold sz
    rw [List.getD_eq_getElem _ _ h1, List.getD_eq_getElem _ _ ho]
    exact ⟨h1, h2, v, by rwa [he _ (List.getElem_mem h1)], by rwa [hw _ (List.getElem_mem ho)]⟩

/-- Terms without `by` that are restricted to the same level (`binary`) and multiplied with the same variable (`by_cont`) are compared by their variables. -/
theorem compared_same (ts : List NTerm) (bin : Option (String × String)) (cont : Option String) (hp : ∀ t ∈ ts, t.byLevels = none ∧ t.binary = bin ∧ t.byCont = cont) (o i : ℕ) (ho : o < ts.length) :
    i ∈ compared ts o 0 ↔ ∃ hi : i < ts.length, (ts[i].vars.length < ts[o].vars.length ∨ (ts[i].vars.length = ts[o].vars.length ∧ i < o)) ∧
      ∃ v ∈ ts[i].vars, v ∈ ts[o].vars := by
  obtain ⟨e, he⟩ : ∃ e : String, ∀ t ∈ ts, ext t = t.vars.map (· ++ e) := by
    refine ⟨(match bin with | some b => "_" ++ b.1 ++ "_" ++ b.2 | none => "") ++ (match cont with | some c => "_" ++ c | none => ""), fun t ht => ?_⟩
    obtain ⟨h1, h2, h3⟩ := hp t ht
    unfold ext ext1 suffix
    rw [h1, h2, h3]
    rw [← List.flatMap_pure_eq_map]
    refine List.flatMap_congr fun v _ => ?_
    cases bin <;> cases cont <;> simp [String.append_assoc]
  have hw : ∀ t ∈ ts, own t 0 = t.vars.map (· ++ e) := by
    intro t ht
    rw [own, if_neg, he t ht]
    unfold nBy
    rw [(hp t ht).1]
    simp
  rw [compared_iff]
  constructor
  · rintro ⟨h1, h2, v, h3, h4⟩
    rw [List.getD_eq_getElem _ _ h1, he _ (List.getElem_mem h1)] at h3
    rw [List.getD_eq_getElem _ _ ho, hw _ (List.getElem_mem ho)] at h4
    unfold sz at h2
    rw [List.getD_eq_getElem _ _ h1, List.getD_eq_getElem _ _ ho] at h2
    obtain ⟨x, hx, rfl⟩ := List.mem_map.1 h3
    obtain ⟨y, hy, hxy⟩ := List.mem_map.1 h4
    have : y = x := by simpa using hxy
    exact ⟨h1, h2, x, hx, this ▸ hy⟩
  · rintro ⟨h1, h2, v, h3, h4⟩
    unfold sz
    rw [List.getD_eq_getElem _ _ h1, List.getD_eq_getElem _ _ ho, he _ (List.getElem_mem h1), hw _ (List.getElem_mem ho)]
    exact ⟨h1, h2, _, List.mem_map_of_mem h3, List.mem_map_of_mem h4⟩

/-- A term that is restricted to a level is not compared with terms of all rows, unless a variable has the name of another followed by those of factor and level. -/
theorem compared_binary (ts : List NTerm) (o i : ℕ) (ho : o < ts.length) (hi : i < ts.length) (b : String × String)
    (h1 : ts[i].byLevels = none ∧ ts[i].binary = none ∧ ts[i].byCont = none) (h2 : ts[o].byLevels = none ∧ ts[o].binary = some b ∧ ts[o].byCont = none)
    (hn : ∀ v ∈ ts[i].vars, ∀ w ∈ ts[o].vars, v ≠ w ++ "_" ++ b.1 ++ "_" ++ b.2) : i ∉ compared ts o 0 := by
  rw [compared_iff]
  rintro ⟨-, -, v, h3, h4⟩
  rw [List.getD_eq_getElem _ _ hi] at h3
  rw [List.getD_eq_getElem _ _ ho] at h4
  have hv : v ∈ ts[i].vars := by
    unfold ext ext1 suffix at h3
    simpa [h1.1, h1.2.1, h1.2.2] using h3
  have hw : ∃ w ∈ ts[o].vars, v = w ++ "_" ++ b.1 ++ "_" ++ b.2 := by
    rw [own, if_neg (by unfold nBy; rw [h2.1]; simp)] at h4
    unfold ext ext1 suffix at h4
    rw [h2.1, h2.2.1, h2.2.2] at h4
    simp only [List.mem_flatMap, List.map_cons, List.map_nil, List.mem_singleton] at h4
    exact h4
  obtain ⟨w, hw, e⟩ := hw
  exact hn v hv w hw e

/-- `f(["x"])` is not compared with `f(["x","z"], binary=("c","a"))`. -/
example : 0 ∉ compared [⟨["x"], none, none, none, false⟩, ⟨["x", "z"], none, some ("c", "a"), none, false⟩] 1 0 :=
  compared_binary _ 1 0 (by simp) (by simp) ("c", "a") (by simp) (by simp) (by simp)

/-- `f(["x"], binary=("c","a"))` is. -/
example : 0 ∈ compared [⟨["x"], none, some ("c", "a"), none, false⟩, ⟨["x", "z"], none, some ("c", "a"), none, false⟩] 1 0 :=
  (compared_same _ (some ("c", "a")) none (by simp) 1 0 (by simp)).2 ⟨by simp, by simp⟩

/-- The columns that remain of a term are independent of the intercept and of the columns that remain of all terms it is compared with. -/
theorem kept_independent {N : ℕ} (qr1 : List (Col N) → Matrix (Fin N) (Fin N) ℝ) (qr2 : ∀ n : ℕ, List (Col n) → Piv) (tol : ℝ) (intercept : Bool)
    (all : List NTerm) (X : ℕ → ℕ → List (Col N)) (s : State N) (h : fixNested (idDeps qr1 qr2 tol) intercept all X = .ok s)
    (o b : ℕ) (ho : o < (looked all).length) (ho2 : 2 ≤ sz (looked all) o) (hb : b < nBy ((looked all).getD o ⟨[], none, none, none, true⟩))
    (hc : compared (looked all) o b ≠ [])
    (hq : QrOk qr1 qr2 (lhs intercept s.X (compared (looked all) o b) b) (X o b)) :
    IndepMod (spanL (lhs intercept s.X (compared (looked all) o b) b)) (s.X o b) := by
  have hk := idDeps_keep qr1 qr2 tol _ _ hq.first hq.second
  rw [(fix_final _ _ _ _ _ h).2.1 (o, b) ((mem_work _ _ _).2 ⟨ho, ho2, hb⟩)]
  have hd := hk.indep
  simp only [gone]
  rw [if_neg hc]
  split_ifs with hlt
  · exact hd
  · have hlen := hk.perm.length_eq
    rw [List.length_range] at hlen
    rw [List.drop_eq_nil_of_le (by rw [hlen]; exact not_lt.1 hlt)] at hd
    exact hd

/-- No combination of the columns that are kept is a combination of a column of ones (of the intercept) and of columns of the terms the term is compared with. -/
theorem kept_not_constant {N : ℕ} (qr1 : List (Col N) → Matrix (Fin N) (Fin N) ℝ) (qr2 : ∀ n : ℕ, List (Col n) → Piv) (tol : ℝ) (intercept : Bool)
    (all : List NTerm) (X : ℕ → ℕ → List (Col N)) (s : State N) (h : fixNested (idDeps qr1 qr2 tol) intercept all X = .ok s)
    (o b : ℕ) (ho : o < (looked all).length) (ho2 : 2 ≤ sz (looked all) o) (hb : b < nBy ((looked all).getD o ⟨[], none, none, none, true⟩))
    (hc : compared (looked all) o b ≠ [])
    (hq : QrOk qr1 qr2 (lhs intercept s.X (compared (looked all) o b) b) (X o b))
    (c : ℕ → ℝ) (a : ℝ) (ha : intercept = false → a = 0) (w : Col N) (hw : w ∈ Submodule.span ℝ {x | ∃ i ∈ compared (looked all) o b, x ∈ s.X i b})
    (hsum : ∀ n, ((List.range (s.X o b).length).map fun i => c i * (s.X o b).getD i 0 n).sum = a + w n) : ∀ i < (s.X o b).length, c i = 0 := by
  intro i hi
  refine kept_independent qr1 qr2 tol intercept all X s h o b ho ho2 hb hc hq c ?_ i (List.mem_range.2 hi)
  have e : ((List.range (s.X o b).length).map fun i => c i • (s.X o b).getD i 0).sum = a • (fun _ => (1 : ℝ)) + w := by
    funext n
    have hs : ∀ L : List ℕ, (L.map fun i => c i • (s.X o b).getD i 0).sum n = (L.map fun i => c i * (s.X o b).getD i 0 n).sum := by
      intro L
      induction L with
      | nil => rfl
      | cons x xs ih => simp only [List.map_cons, List.sum_cons, Pi.add_apply, ih]; rfl
    rw [hs, hsum n]
    simp
  rw [e]
  refine Submodule.add_mem _ ?_ ?_
  · cases intercept with
    | false => rw [ha rfl, zero_smul]; exact Submodule.zero_mem _
    | true => exact Submodule.smul_mem _ _ (Submodule.subset_span (by simp [lhs]))
  · refine Submodule.span_mono ?_ hw
    rintro x ⟨i, hi, hx⟩
    exact List.mem_append_right _ (List.mem_flatMap.2 ⟨i, hi, hx⟩)

/-- If the columns of the smaller terms are independent, then so are those together with the columns that remain. -/
theorem whole_independent {N : ℕ} (qr1 : List (Col N) → Matrix (Fin N) (Fin N) ℝ) (qr2 : ∀ n : ℕ, List (Col n) → Piv) (tol : ℝ) (intercept : Bool)
    (all : List NTerm) (X : ℕ → ℕ → List (Col N)) (s : State N) (h : fixNested (idDeps qr1 qr2 tol) intercept all X = .ok s)
    (o b : ℕ) (ho : o < (looked all).length) (ho2 : 2 ≤ sz (looked all) o) (hb : b < nBy ((looked all).getD o ⟨[], none, none, none, true⟩))
    (hc : compared (looked all) o b ≠ [])
    (hq : QrOk qr1 qr2 (lhs intercept s.X (compared (looked all) o b) b) (X o b))
    (hi : IndepMod ⊥ (lhs intercept s.X (compared (looked all) o b) b)) :
    IndepMod ⊥ (lhs intercept s.X (compared (looked all) o b) b ++ s.X o b) :=
  hi.append (kept_independent qr1 qr2 tol intercept all X s h o b ho ho2 hb hc hq)

/-- Dropping coefficients does not change what the model can express: for every level, the columns of all terms span the same space before and after. -/
theorem span_kept {N : ℕ} (hN : 0 < N) (qr1 : List (Col N) → Matrix (Fin N) (Fin N) ℝ) (qr2 : ∀ n : ℕ, List (Col n) → Piv) (tol : ℝ) (intercept : Bool)
    (all : List NTerm) (X : ℕ → ℕ → List (Col N)) (s : State N) (h : fixNested (idDeps qr1 qr2 tol) intercept all X = .ok s)
    (hq : ∀ o b, (o, b) ∈ work (looked all) → compared (looked all) o b ≠ [] →
      QrOk qr1 qr2 (lhs intercept s.X (compared (looked all) o b) b) (X o b) ∧
      IndepMod ⊥ (lhs intercept s.X (compared (looked all) o b) b) ∧
      PivotOk qr1 qr2 tol (lhs intercept s.X (compared (looked all) o b) b) (X o b)) (b : ℕ) :
    spanL (lhs intercept s.X (List.range (looked all).length) b) = spanL (lhs intercept X (List.range (looked all).length) b) := by
  obtain ⟨h0, h1, -, -⟩ := fix_final _ _ _ _ _ h
  refine le_antisymm (spanL_mono fun x hx => ?_) (spanL_mono fun x hx => ?_)
  · refine mem_spanL ?_
    unfold lhs at hx ⊢
    rcases List.mem_append.1 hx with hx | hx
    · exact List.mem_append.2 (Or.inl hx)
    · obtain ⟨o, ho, hx⟩ := List.mem_flatMap.1 hx
      refine List.mem_append.2 (Or.inr (List.mem_flatMap.2 ⟨o, ho, ?_⟩))
      by_cases hw : (o, b) ∈ work (looked all)
      · rw [h1 (o, b) hw] at hx
        obtain ⟨i, hi, rfl⟩ := List.mem_map.1 hx
        exact getD_mem _ _ (List.mem_range.1 (List.mem_filter.1 hi).1)
      · rwa [h0 (o, b) hw] at hx
  · unfold lhs at hx
    rcases List.mem_append.1 hx with hx | hx
    · exact mem_spanL (List.mem_append.2 (Or.inl hx))
    · obtain ⟨o, ho, hx⟩ := List.mem_flatMap.1 hx
      have fin : ∀ y ∈ s.X o b, y ∈ spanL (lhs intercept s.X (List.range (looked all).length) b) := fun y hy =>
        mem_spanL (List.mem_append.2 (Or.inr (List.mem_flatMap.2 ⟨o, ho, hy⟩)))
      by_cases hw : (o, b) ∈ work (looked all)
      · by_cases hc : compared (looked all) o b = []
        · refine fin x ?_
          rw [h1 (o, b) hw]
          simp only [gone]
          rw [if_pos hc, delCols_nil]
          exact hx
        · obtain ⟨q1, q2, q3⟩ := hq o b hw hc
          have hr : (idDeps qr1 qr2 tol (lhs intercept s.X (compared (looked all) o b) b) (X o b)).2 = _ :=
            shrink_full _ _ _ (by simpa [dif_pos hN] using q3 hN)
          have hs := idDeps_span qr1 qr2 tol _ _ q1.first q1.second q2 hr x hx
          have hk := idDeps_keep qr1 qr2 tol _ _ q1.first q1.second
          refine (sup_le (spanL_mono fun y hy => ?_) (spanL_mono fun y hy => fin y ?_)) hs
          · unfold lhs at hy
            rcases List.mem_append.1 hy with hy | hy
            · exact mem_spanL (List.mem_append.2 (Or.inl hy))
            · obtain ⟨i, hi, hy⟩ := List.mem_flatMap.1 hy
              exact mem_spanL (List.mem_append.2 (Or.inr (List.mem_flatMap.2 ⟨i, List.mem_range.2 (compared_before _ _ _ _ hi).1, hy⟩)))
          · rw [h1 (o, b) hw]
            simp only [gone]
            rw [if_neg hc]
            split_ifs with hlt
            · exact hy
            · have hlen := hk.perm.length_eq
              rw [List.length_range] at hlen
              rw [List.drop_eq_nil_of_le (by rw [hlen]; exact not_lt.1 hlt)] at hy
              exact hy
      · refine fin x ?_
        rw [h0 (o, b) hw]
        exact hx

/-- `drop_coef` of a term are the positions of the dropped columns in the matrix of all its levels: deleting them leaves exactly the columns that remain. -/
theorem drop_coef {N : ℕ} (qr1 : List (Col N) → Matrix (Fin N) (Fin N) ℝ) (qr2 : ∀ n : ℕ, List (Col n) → Piv) (tol : ℝ) (intercept : Bool)
    (all : List NTerm) (X : ℕ → ℕ → List (Col N)) (s : State N) (h : fixNested (idDeps qr1 qr2 tol) intercept all X = .ok s)
    (o n : ℕ) (ho : o < (looked all).length) (hn : ∀ b < nBy ((looked all).getD o ⟨[], none, none, none, true⟩), (X o b).length = n)
    (hq : ∀ b < nBy ((looked all).getD o ⟨[], none, none, none, true⟩), compared (looked all) o b ≠ [] →
      QrOk qr1 qr2 (lhs intercept s.X (compared (looked all) o b) b) (X o b)) :
    delCols ((List.range (nBy ((looked all).getD o ⟨[], none, none, none, true⟩))).flatMap (X o)) (s.drop o) =
      (List.range (nBy ((looked all).getD o ⟨[], none, none, none, true⟩))).flatMap (s.X o) := by
  obtain ⟨h0, h1, h2, -⟩ := fix_final _ _ _ _ _ h
  set K := nBy ((looked all).getD o ⟨[], none, none, none, true⟩) with hK
  by_cases hs : 2 ≤ sz (looked all) o
  · rw [delCols_blocks (X o) n K hn (s.drop o) (gone (idDeps qr1 qr2 tol) intercept (looked all) s.X X o)]
    · rw [List.flatMap_def, List.flatMap_def]
      congr 1
      refine List.map_congr_left fun b hb => ?_
      exact (h1 (o, b) ((mem_work _ _ _).2 ⟨ho, hs, List.mem_range.1 hb⟩)).symm
    · -- positions of a level
      have perm : ∀ b < K, compared (looked all) o b ≠ [] → (decision (idDeps qr1 qr2 tol) intercept (looked all) s.X X o b).1.Perm (List.range n) := by
        intro b hb hc
        have := (idDeps_keep qr1 qr2 tol _ _ (hq b hb hc).first (hq b hb hc).second).perm
        rwa [hn b hb] at this
      have gmem : ∀ b, ∀ i ∈ gone (idDeps qr1 qr2 tol) intercept (looked all) s.X X o b, compared (looked all) o b ≠ [] ∧
          i ∈ (decision (idDeps qr1 qr2 tol) intercept (looked all) s.X X o b).1 := by
        intro b i hi
        unfold gone at hi
        split_ifs at hi with a1 a2
        · simp at hi
        · exact ⟨a1, List.mem_of_mem_drop hi⟩
        · simp at hi
      intro b hb i hi
      rw [h2]
      constructor
      · intro hg
        refine ⟨b, (mem_work _ _ _).2 ⟨ho, hs, hb⟩, i, hg, ?_⟩
        rw [(perm b hb (gmem b i hg).1).length_eq, List.length_range]
        ring
      · rintro ⟨b', hb', i', hi', e⟩
        have hb' := ((mem_work _ _ _).1 hb').2.2
        have g := gmem b' i' hi'
        have hp := perm b' hb' g.1
        rw [hp.length_eq, List.length_range] at e
        have hi'n : i' < n := List.mem_range.1 (hp.mem_iff.1 g.2)
        have hbb : b = b' := by
          have e1 : (b * n + i) / n = b := by rw [mul_comm, Nat.mul_add_div (by omega), Nat.div_eq_of_lt hi, add_zero]
          have e2 : (i' + b' * n) / n = b' := by rw [add_comm, mul_comm, Nat.mul_add_div (by omega), Nat.div_eq_of_lt hi'n, add_zero]
          rw [← e1, e, e2]
        subst hbb
        have : i = i' := by omega
        rwa [this]
  · have hd : s.drop o = [] := by
      rw [List.eq_nil_iff_forall_not_mem]
      intro j hj
      obtain ⟨b, hb, -⟩ := (h2 o j).1 hj
      exact hs ((mem_work _ _ _).1 hb).2.1
    rw [hd, delCols_nil, List.flatMap_def, List.flatMap_def]
    congr 1
    refine List.map_congr_left fun b _ => ?_
    exact (h0 (o, b) fun hw => hs ((mem_work _ _ _).1 hw).2.1).symm

/-- Terms with one variable keep all their coefficients. -/
theorem single_kept {N : ℕ} (idDep : List (Col N) → List (Col N) → List ℕ × ℕ) (intercept : Bool)
    (all : List NTerm) (X : ℕ → ℕ → List (Col N)) (s : State N) (h : fixNested idDep intercept all X = .ok s) (o : ℕ) (ho : sz (looked all) o ≤ 1) :
    s.X o = X o ∧ s.drop o = [] := by
  obtain ⟨h0, -, h2, -⟩ := fix_final _ _ _ _ _ h
  have hn : ∀ b, (o, b) ∉ work (looked all) := fun b hb => by
    have := ((mem_work _ _ _).1 hb).2.1
    exact absurd this (by omega)
  refine ⟨funext fun b => h0 (o, b) (hn b), ?_⟩
  rw [List.eq_nil_iff_forall_not_mem]
  intro j hj
  obtain ⟨b, hb, -⟩ := (h2 o j).1 hj
  exact hn b hb

/-! ### A case -/

/-- `f(["x"])`. -/
def tx : NTerm := ⟨["x"], none, none, none, false⟩
/-- `f(["x","z"])`. -/
def txz : NTerm := ⟨["x", "z"], none, none, none, false⟩

/-- Three observations: the column of `x` also belongs to the second term. -/
def demoX : ℕ → ℕ → List (Col 3)
  | 0, _ => [![1, 0, 0]]
  | _, _ => [![1, 0, 0], ![0, 1, 0]]

/-- Decompositions of the case. -/
def demoQ : List (Col 3) → Matrix (Fin 3) (Fin 3) ℝ := fun _ => 1
/-- Decompositions of the case. -/
def demoP : ∀ n : ℕ, List (Col n) → Piv := fun _ _ => ⟨[1, 0], 1, fun _ j => if j = 0 then 1 else 0⟩

theorem demo_rank : idDeps demoQ demoP (1 / 2) [![1, 0, 0]] [![1, 0, 0], ![0, 1, 0]] = ([1, 0], 1) := by
  show ([1, 0], shrink _ _ 1 1) = _
  rw [shrink_full]
  right
  simp only [demoQ, transpose_one, one_mulVec]
  norm_num [demoP]

theorem demo_qr : QrOk demoQ demoP [![1, 0, 0]] [![1, 0, 0], ![0, 1, 0]] := by
  refine ⟨⟨by simp [demoQ], ?_⟩, ⟨?_, ?_, ?_, ?_⟩⟩
  · intro j hj i hi
    have : j = 0 := by simpa using hj
    subst this
    fin_cases i <;> simp_all [demoQ]
  · exact List.Perm.swap 0 1 []
  · simp [demoP]
  · intro i hi
    have : i = 0 := by simpa [demoP] using hi
    subst this
    simp [demoP]
  · simp only [demoQ, transpose_one, one_mulVec]
    refine ⟨fun _ i => if (i : ℕ) = 0 then 1 else 0, ?_, ?_⟩
    · intro i hi j hj
      have hi : i = 0 := by simpa [demoP] using hi
      have hj : j = 0 := by simpa [demoP] using hj
      subst hi hj
      show (∑ i : Fin 2, _) = _
      simp
    · intro k hk
      have hk : k = 0 ∨ k = 1 := by
        have : k < 2 := hk
        omega
      rw [show (demoP _ (List.map (fun v => lower (List.length [![(1 : ℝ), 0, 0]]) v) [![1, 0, 0], ![0, 1, 0]])).rank = 1 from rfl, Finset.sum_range_one]
      funext i
      rcases i with ⟨i, hi⟩
      have hi' : i = 0 ∨ i = 1 := by
        have : i < 2 := hi
        omega
      rcases hk with rfl | rfl <;> rcases hi' with rfl | rfl
      · show (1 : ℝ) = (if 0 ≤ 0 then 1 else 0) * 1
        simp
      · show (0 : ℝ) = (if 0 ≤ 0 then 1 else 0) * 0
        simp
      · show (0 : ℝ) = (if 0 ≤ 1 then if 1 = 0 then 1 else 0 else 0) * 1
        simp
      · show (0 : ℝ) = (if 0 ≤ 1 then if 1 = 0 then 1 else 0 else 0) * 0
        simp

/-- The case: the first coefficient of the second term is dropped. -/
theorem demo_fix : ∃ s, fixNested (idDeps demoQ demoP (1 / 2)) false [tx, txz] demoX = .ok s ∧ s.X 1 0 = [![0, 1, 0]] ∧ s.X 0 0 = [![1, 0, 0]] ∧ s.drop 1 = [0] := by
  have hc : compared [tx, txz] 1 0 = [0] := by decide
  have hn : ¬ ([tx, txz].flatMap ext).Nodup := by decide
  have e : fixNested (idDeps demoQ demoP (1 / 2)) false [tx, txz] demoX = step (idDeps demoQ demoP (1 / 2)) false [tx, txz] ⟨demoX, fun _ => []⟩ (1, 0) := by
    unfold fixNested
    simp only [show ([tx, txz].filter fun t => ! t.isFs) = [tx, txz] from rfl]
    rw [if_neg (by simp), if_neg (by decide), if_neg hn]
    rw [show work [tx, txz] = [(1, 0)] by decide]
    simp
  rw [e]
  unfold step
  simp only [hc]
  rw [if_neg (by decide), if_neg (by simp)]
  rw [show lhs false demoX [0] 0 = [![1, 0, 0]] from rfl, show demoX 1 0 = [![1, 0, 0], ![0, 1, 0]] from rfl, demo_rank]
  refine ⟨_, rfl, ?_, ?_, ?_⟩
  · rfl
  · rfl
  · simp

example : ∃ s, fixNested (idDeps demoQ demoP (1 / 2)) false [tx, txz] demoX = .ok s ∧
    IndepMod (spanL [![1, 0, 0]]) (s.X 1 0) := by
  obtain ⟨s, h, -, h0, -⟩ := demo_fix
  have hl : lhs false s.X (compared (looked [tx, txz]) 1 0) 0 = [![1, 0, 0]] := by
    rw [show compared (looked [tx, txz]) 1 0 = [0] by decide]
    unfold lhs
    simp [h0]
  have := kept_independent demoQ demoP (1 / 2) false [tx, txz] demoX s h 1 0 (by decide) (by decide) (by decide) (by decide)
    (by rw [hl]; exact demo_qr)
  exact ⟨s, h, by rwa [hl] at this⟩

example : ∃ s, fixNested (idDeps demoQ demoP (1 / 2)) false [tx, txz] demoX = .ok s ∧
    IndepMod ⊥ (lhs false s.X [0] 0 ++ s.X 1 0) ∧ spanL (lhs false s.X [0, 1] 0) = spanL (lhs false demoX [0, 1] 0) ∧
    delCols ([0].flatMap (demoX 1)) (s.drop 1) = [0].flatMap (s.X 1) := by
  obtain ⟨s, h, -, h0, -⟩ := demo_fix
  have hl : lhs false s.X (compared (looked [tx, txz]) 1 0) 0 = [![1, 0, 0]] := by
    rw [show compared (looked [tx, txz]) 1 0 = [0] by decide]
    unfold lhs
    simp [h0]
  have hi : IndepMod ⊥ ([![1, 0, 0]] : List (Col 3)) := by
    intro c hc i hi
    have : i = 0 := by simpa using hi
    subst this
    rw [Submodule.mem_bot] at hc
    have := congrFun hc 0
    simpa using this
  refine ⟨s, h, ?_, ?_, ?_⟩
  · have := whole_independent demoQ demoP (1 / 2) false [tx, txz] demoX s h 1 0 (by decide) (by decide) (by decide) (by decide)
      (by rw [hl]; exact demo_qr) (by rw [hl]; exact hi)
    exact this
  · refine span_kept (by norm_num) demoQ demoP (1 / 2) false [tx, txz] demoX s h ?_ 0
    intro o b hw hc
    have hw' : (o, b) ∈ work [tx, txz] := hw
    rw [show work [tx, txz] = [(1, 0)] by decide] at hw'
    obtain ⟨rfl, rfl⟩ : o = 1 ∧ b = 0 := by simpa using hw'
    rw [hl]
    refine ⟨demo_qr, hi, ?_⟩
    intro hN
    right
    simp only [demoQ, transpose_one, one_mulVec, demoP]
    norm_num
  · exact drop_coef demoQ demoP (1 / 2) false [tx, txz] demoX s h 1 2 (by decide) (fun b _ => rfl) (by
      intro b hb hc
      have : b = 0 := by
        have : b < 1 := hb
        omega
      subst this
      rw [hl]
      exact demo_qr)

/-! ### What goes wrong -/

/-- A formula whose only smooth terms are `fs` terms cannot be built with the default `find_nested=True`. -/
theorem only_fs_wrong {N : ℕ} (idDep : List (Col N) → List (Col N) → List ℕ × ℕ) (intercept : Bool) (all : List NTerm) (X : ℕ → ℕ → List (Col N))
    (h : ∀ t ∈ all, t.isFs = true) : fixNested idDep intercept all X = .error .value := by
  unfold fixNested
  simp only
  rw [if_pos]
  rw [List.filter_eq_nil_iff]
  intro t ht
  simp [h t ht]

example : fixNested (N := 3) (fun _ _ => ([], 0)) true [⟨["x"], none, none, none, true⟩] (fun _ _ => []) = .error .value :=
  only_fs_wrong _ _ _ _ (by simp)

/-- `f(["x","z"], by="cond")` with two levels. -/
def txzBy : NTerm := ⟨["x", "z"], some ["a", "b"], none, none, false⟩

/-- Names carry the level, so `f(["x"])` is not found to be nested in `f(["x","z"], by="cond")`, whose columns for all levels together contain it. -/
theorem by_undetected_wrong : ∃ X : ℕ → ℕ → List (Col 2),
    (∀ idDep intercept, fixNested idDep intercept [tx, txzBy] X = .ok ⟨X, fun _ => []⟩) ∧
    (∀ v ∈ X 1 0, v 1 = 0) ∧ (∀ v ∈ X 1 1, v 0 = 0) ∧ IndepMod ⊥ (X 1 0 ++ X 1 1) ∧ ¬ IndepMod ⊥ (X 0 0 ++ X 1 0 ++ X 1 1) := by
  refine ⟨fun o b => if o = 0 then [![1, 2]] else if b = 0 then [![1, 0]] else [![0, 2]], ?_, ?_, ?_, ?_, ?_⟩
  · intro idDep intercept
    unfold fixNested
    simp only [show ([tx, txzBy].filter fun t => ! t.isFs) = [tx, txzBy] from rfl]
    rw [if_neg (by simp), if_neg (by decide), if_pos (by decide)]
  · simp
  · simp
  · intro c hc i hi
    simp only [one_ne_zero, if_true, if_false] at hc hi
    rw [Submodule.mem_bot] at hc
    have h0 := congrFun hc 0
    have h1 := congrFun hc 1
    simp [List.range_succ] at h0 h1 hi
    have : i = 0 ∨ i = 1 := by omega
    rcases this with rfl | rfl
    · exact h0
    · exact h1
  · intro h
    have := h (fun i => if i = 0 then 1 else -1) (by
      rw [Submodule.mem_bot]
      funext i
      fin_cases i <;> simp [List.range_succ]) 0 (by simp)
    simp at this

/-- Level names are compared without the name of their factor: two `by` factors that share a level name, at different positions, end in an `IndexError`. -/
theorem level_names_wrong {N : ℕ} (idDep : List (Col N) → List (Col N) → List ℕ × ℕ) (intercept : Bool) (X : ℕ → ℕ → List (Col N)) :
    let small : NTerm := ⟨["x"], some ["1"], none, none, false⟩
    let large : NTerm := ⟨["x", "z"], some ["0", "1"], none, none, false⟩
    fixNested idDep intercept [small, large] X = .error .index := by
  intro small large
  unfold fixNested
  simp only [show ([small, large].filter fun t => ! t.isFs) = [small, large] from rfl]
  rw [if_neg (by simp), if_neg (by decide), if_neg (by decide)]
  rw [show work [small, large] = [(1, 0), (1, 1)] by decide]
  have c0 : compared [small, large] 1 0 = [] := by decide
  have c1 : compared [small, large] 1 1 = [0] := by decide
  have s0 : step idDep intercept [small, large] ⟨X, fun _ => []⟩ (1, 0) = .ok ⟨X, fun _ => []⟩ := by
    unfold step
    simp only [c0]
    simp
  have s1 : step idDep intercept [small, large] ⟨X, fun _ => []⟩ (1, 1) = .error .index := by
    unfold step
    simp only [c1]
    rw [if_pos (by decide)]
  rw [List.foldlM_cons, s0]
  show ([(1, 1)] : List (ℕ × ℕ)).foldlM (step idDep intercept [small, large]) ⟨X, fun _ => []⟩ = _
  rw [List.foldlM_cons, s1]
  rfl

/-- If the smaller terms are already redundant, independent columns of the larger term are dropped as well. -/
theorem redundant_wrong : ∃ (X1 X2 : List (Col 3)) (qr1 : List (Col 3) → Matrix (Fin 3) (Fin 3) ℝ) (qr2 : ∀ n : ℕ, List (Col n) → Piv),
    QrOk qr1 qr2 X1 X2 ∧ IndepMod (spanL X1) X2 ∧ X2.length = 1 ∧ ∀ tol, (idDeps qr1 qr2 tol X1 X2).2 = 0 := by
  refine ⟨[![1, 0, 0], ![1, 0, 0]], [![0, 1, 0]], fun _ => 1, fun _ _ => ⟨[0], 0, fun _ _ => 0⟩, ⟨⟨by simp, ?_⟩, ⟨?_, by simp, by simp, ?_⟩⟩, ?_, rfl, fun _ => rfl⟩
  · intro j hj i hi
    have : j = 0 ∨ j = 1 := by
      have : j < 2 := hj
      omega
    rcases this with rfl | rfl <;> fin_cases i <;> simp_all
  · exact List.Perm.refl _
  · simp only [transpose_one, one_mulVec]
    refine ⟨fun _ => 0, by simp, ?_⟩
    intro k hk
    have : k = 0 := by
      have : k < 1 := hk
      omega
    subst this
    funext i
    rcases i with ⟨i, hi⟩
    have : i = 0 := by
      have : i < 1 := hi
      omega
    subst this
    rfl
  · intro c hc i hi
    have : i = 0 := by simpa using hi
    subst this
    have hz : ∀ v ∈ spanL ([![1, 0, 0], ![1, 0, 0]] : List (Col 3)), v 1 = 0 := by
      intro v hv
      induction hv using Submodule.span_induction with
      | mem x hx => 
        have : x = ![1, 0, 0] := by simpa using hx
        simp [this]
      | zero => rfl
      | add x y _ _ hx hy => simp [hx, hy]
      | smul a x _ hx => simp [hx]
    have := hz _ hc
    simpa using this

/-- The threshold is relative to the first column of the smaller terms only: a column that is independent of them but small is dropped. -/
theorem small_wrong (tol δ : ℝ) (h0 : 0 < δ) (h1 : δ < tol) : ∃ (qr1 : List (Col 2) → Matrix (Fin 2) (Fin 2) ℝ) (qr2 : ∀ n : ℕ, List (Col n) → Piv),
    QrOk qr1 qr2 [![1, 0]] [![0, δ]] ∧ IndepMod (spanL [![1, 0]]) [![0, δ]] ∧ (idDeps qr1 qr2 tol [![1, 0]] [![0, δ]]).2 = 0 := by
  refine ⟨fun _ => 1, fun _ _ => ⟨[0], 1, fun _ _ => δ⟩, ⟨⟨by simp, ?_⟩, ⟨List.Perm.refl _, by simp, ?_, ?_⟩⟩, ?_, ?_⟩
  · intro j hj i hi
    have : j = 0 := by simpa using hj
    subst this
    fin_cases i <;> simp_all
  · intro i _
    exact h0.ne'
  · simp only [transpose_one, one_mulVec]
    refine ⟨fun _ _ => 1, ?_, ?_⟩
    · intro i hi j hj
      have hi : i = 0 := by simpa using hi
      have hj : j = 0 := by simpa using hj
      subst hi hj
      show (∑ i : Fin 1, _) = _
      simp
    · intro k hk
      have : k = 0 := by
        have : k < 1 := hk
        omega
      subst this
      rw [Finset.sum_range_one]
      funext i
      rcases i with ⟨i, hi⟩
      have : i = 0 := by
        have : i < 1 := hi
        omega
      subst this
      show δ = (if 0 ≤ 0 then δ else 0) * 1
      simp
  · intro c hc i hi
    have : i = 0 := by simpa using hi
    subst this
    have hz : ∀ v ∈ spanL ([![1, 0]] : List (Col 2)), v 1 = 0 := by
      intro v hv
      induction hv using Submodule.span_induction with
      | mem x hx => 
        have : x = ![1, 0] := by simpa using hx
        simp [this]
      | zero => rfl
      | add x y _ _ hx hy => simp [hx, hy]
      | smul a x _ hx => simp [hx]
    have := hz _ hc
    have := this
    simp at this
    exact this.resolve_right h0.ne'
  · show shrink _ _ 1 1 = 0
    simp only [transpose_one, one_mulVec]
    unfold shrink
    rw [if_neg]
    · rfl
    · simp [meanBlock, abs_of_pos h0, h1]

example : (0 : ℝ) < 1 / 10 ^ 9 ∧ (1 : ℝ) / 10 ^ 9 < 1 / 10 ^ 8 := by norm_num

end Verif.Nest
