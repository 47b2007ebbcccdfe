import Verif.SplitModel
import Verif.Drop
import Mathlib.Tactic.Linarith
import Mathlib.Tactic.NormNum

/-!
# Splitting the coefficient vector: theorems (property C47)
-/

namespace Verif.Split

open Verif.Drop

/-- Position at which block `i` starts. -/
def start (counts : List ℕ) (i : ℕ) : ℕ := (counts.take i).sum

theorem start_succ (counts : List ℕ) (i : ℕ) (hi : i < counts.length) : start counts (i + 1) = start counts i + counts[i] := by
  unfold start
  rw [List.take_add_one, List.getElem?_eq_getElem hi, List.sum_append]
  simp

/-- State of the accumulation after `k` steps. -/
theorem accum_inv (l : List ℕ) (k : ℕ) (hk : k ≤ l.length - 1) :
    let r := (List.range k).foldl (fun l i => l.set (i + 1) (l.getD (i + 1) 0 + l.getD i 0)) l
    r.length = l.length ∧ (∀ i, i ≤ k → i < l.length → r.getD i 0 = start l (i + 1)) ∧ (∀ i, k < i → r.getD i 0 = l.getD i 0) := by
  induction k with
  | zero =>
    refine ⟨rfl, fun i hi hl => ?_, fun i _ => rfl⟩
    have : i = 0 := by omega
    subst this
    rw [start_succ l 0 hl]
    simp [start, List.getElem?_eq_getElem hl]
  | succ k ih =>
    obtain ⟨h1, h2, h3⟩ := ih (by omega)
    rw [List.range_succ, List.foldl_append]
    simp only [List.foldl_cons, List.foldl_nil]
    generalize hr : (List.range k).foldl (fun l i => l.set (i + 1) (l.getD (i + 1) 0 + l.getD i 0)) l = r at h1 h2 h3
    have hkl : k + 1 < l.length := by omega
    refine ⟨by rw [List.length_set, h1], fun i hi hl => ?_, fun i hi => ?_⟩
    · rcases Nat.lt_or_ge i (k + 1) with hlt | hge
      · rw [List.getD_eq_getElem?_getD, List.getElem?_set_ne (by omega), ← List.getD_eq_getElem?_getD, h2 i (by omega) hl]
      · have : i = k + 1 := by omega
        subst this
        rw [List.getD_eq_getElem?_getD, List.getElem?_set_self (by omega), Option.getD_some, h3 (k + 1) (by omega), h2 k le_rfl (by omega),
          start_succ l (k + 1) hl, List.getD_eq_getElem _ _ hl]
        omega
    · rw [List.getD_eq_getElem?_getD, List.getElem?_set_ne (by omega), ← List.getD_eq_getElem?_getD, h3 i (by omega)]

theorem accum_length (l : List ℕ) : (accum l).length = l.length := (accum_inv l (l.length - 1) le_rfl).1

theorem accum_get (l : List ℕ) (i : ℕ) (hi : i < l.length) : (accum l).getD i 0 = start l (i + 1) :=
  (accum_inv l (l.length - 1) le_rfl).2.1 i (by omega) hi

theorem splitIndex_length (counts : List ℕ) (extra : Option ℕ) :
    (splitIndex counts extra).length = (counts ++ extra.toList).length - 1 := by
  unfold splitIndex
  simp only
  by_cases h : counts.length > 1
  · rw [if_pos h, accum_length, List.length_dropLast]
  · rw [if_neg h, List.length_dropLast]

theorem splitIndex_get (counts : List ℕ) (extra : Option ℕ) (i : ℕ) (hi : i + 1 < (counts ++ extra.toList).length) :
    (splitIndex counts extra).getD i 0 = start (counts ++ extra.toList) (i + 1) := by
  have hl : (counts ++ extra.toList).dropLast.length = (counts ++ extra.toList).length - 1 := List.length_dropLast
  have hst : start (counts ++ extra.toList).dropLast (i + 1) = start (counts ++ extra.toList) (i + 1) := by
    unfold start
    rw [List.dropLast_eq_take, List.take_take, Nat.min_eq_left (by omega)]
  unfold splitIndex
  simp only
  by_cases h : counts.length > 1
  · rw [if_pos h, accum_get _ _ (by omega), hst]
  · rw [if_neg h, ← hst]
    have he : extra.toList.length ≤ 1 := by cases extra <;> simp
    have hi0 : i = 0 := by
      rw [List.length_append] at hi
      omega
    subst hi0
    rw [start_succ _ 0 (by omega), List.getD_eq_getElem _ _ (by omega)]
    simp [start]

theorem pieces_length {α : Type} (l : List α) (idx : List ℕ) : ∀ a, (npSplit l a idx).length = idx.length + 1 := by
  induction idx with
  | nil => intro a; rfl
  | cons b bs ih => intro a; rw [npSplit, List.length_cons, ih b, List.length_cons]

/-- The pieces concatenated give back the vector, for positions in order. -/
theorem pieces_flatten {α : Type} (l : List α) (idx : List ℕ) : ∀ a, (a :: idx).Pairwise (· ≤ ·) → (npSplit l a idx).flatten = l.drop a := by
  induction idx with
  | nil => intro a _; simp [npSplit]
  | cons b bs ih =>
    intro a h
    have hab : a ≤ b := (List.pairwise_cons.1 h).1 b List.mem_cons_self
    rw [npSplit, List.flatten_cons, ih b (List.pairwise_cons.1 h).2]
    have : l.drop b = (l.drop a).drop (b - a) := by rw [List.drop_drop, Nat.add_sub_cancel' hab]
    rw [this, List.take_append_drop]

theorem start_mono (l : List ℕ) (i j : ℕ) (h : i ≤ j) : start l i ≤ start l j := by
  obtain ⟨k, rfl⟩ := Nat.exists_eq_add_of_le h
  unfold start
  rw [List.take_add, List.sum_append]
  omega

theorem splitIndex_sorted (counts : List ℕ) (extra : Option ℕ) : (0 :: splitIndex counts extra).Pairwise (· ≤ ·) := by
  refine List.pairwise_cons.2 ⟨fun _ _ => Nat.zero_le _, List.pairwise_iff_getElem.2 fun i j hi hj hij => ?_⟩
  have hl := splitIndex_length counts extra
  rw [← List.getD_eq_getElem _ 0 hi, ← List.getD_eq_getElem _ 0 hj, splitIndex_get _ _ _ (by omega), splitIndex_get _ _ _ (by omega)]
  exact start_mono _ _ _ (by omega)

/-- Splitting and concatenating returns the vector. -/
theorem split_concat (counts : List ℕ) (extra : Option ℕ) (coef : List ℝ) :
    (npSplit coef 0 (splitIndex counts extra)).flatten = coef := by
  rw [pieces_flatten _ _ 0 (splitIndex_sorted counts extra), List.drop_zero]

/-- One block per formula, one more for extra coefficients. -/
theorem split_blocks (counts : List ℕ) (extra : Option ℕ) (coef : List ℝ) (hc : counts ≠ []) :
    (npSplit coef 0 (splitIndex counts extra)).length = counts.length + (if extra.isSome then 1 else 0) := by
  have : 0 < counts.length := List.length_pos_iff.2 hc
  rw [pieces_length, splitIndex_length, List.length_append]
  cases extra <;> simp <;> omega

/-- Block `i` consists of the coefficients of formula `i` (or the extra ones): it starts after those of the formulas before it and has
its own number of coefficients. -/
theorem split_block (counts : List ℕ) (extra : Option ℕ) (coef : List ℝ) (hlen : coef.length = (counts ++ extra.toList).sum) (i : ℕ)
    (hi : i < (counts ++ extra.toList).length) :
    ∃ b, (npSplit coef 0 (splitIndex counts extra))[i]? = some b ∧ b.length = (counts ++ extra.toList)[i] ∧
      ∀ k < b.length, b[k]? = coef[start (counts ++ extra.toList) i + k]? := by
  have hl := splitIndex_length counts extra
  have hfull : start (counts ++ extra.toList) (counts ++ extra.toList).length = coef.length := by
    unfold start
    rw [List.take_length, hlen]
  have hle : start (counts ++ extra.toList) (i + 1) ≤ coef.length := by
    rw [← hfull]
    exact start_mono _ _ _ (by omega)
  have hstart : (0 :: splitIndex counts extra).getD i 0 = start (counts ++ extra.toList) i := by
    cases i with
    | zero => simp [start]
    | succ i => rw [List.getD_cons_succ, splitIndex_get _ _ _ (by omega)]
  have hs := start_succ (counts ++ extra.toList) i hi
  rcases Nat.lt_or_ge (i + 1) (counts ++ extra.toList).length with h | h
  · refine ⟨_, npSplit_get coef (splitIndex counts extra) 0 i (by omega), ?_, ?_⟩
    · rw [hstart, splitIndex_get _ _ _ h, List.length_take, List.length_drop]
      omega
    · intro k hk
      rw [hstart, splitIndex_get _ _ _ h, List.length_take] at hk
      rw [hstart, splitIndex_get _ _ _ h, List.getElem?_take_of_lt (by omega), List.getElem?_drop]
  · have hi' : i = (splitIndex counts extra).length := by omega
    have hg := npSplit_last coef (splitIndex counts extra) 0
    rw [← hi', hstart] at hg
    refine ⟨_, hg, ?_, ?_⟩
    · rw [List.length_drop]
      have : start (counts ++ extra.toList) (i + 1) = coef.length := by
        rw [← hfull, show i + 1 = (counts ++ extra.toList).length from by omega]
      omega
    · intro k _
      rw [List.getElem?_drop]

/-! ## `get_pars` -/

theorem nBlocks_eq (m : Model) : nBlocks m = (m.counts ++ m.extra.toList).length := by
  unfold nBlocks
  rw [List.length_append]
  cases m.extra <;> simp

theorem pyGet_nat {α : Type} (l : List α) (i : ℕ) : pyGet l (i : Int) = l[i]? := by
  unfold pyGet
  rw [if_pos (by omega), Int.toNat_natCast]

theorem subCoef_block (m : Model) (coef : List ℝ) (hlen : coef.length = (m.counts ++ m.extra.toList).sum) (i : ℕ) (hi : i < nBlocks m) :
    ∃ b, subCoef m coef i = some b ∧ b.length = (m.counts ++ m.extra.toList).getD i 0 ∧
      ∀ k < b.length, b[k]? = coef[start (m.counts ++ m.extra.toList) i + k]? := by
  rw [nBlocks_eq] at hi
  unfold subCoef
  by_cases h : m.counts.length > 1 ∨ m.extra.isSome
  · rw [if_pos h, pyGet_nat, List.getD_eq_getElem _ _ hi]
    exact split_block m.counts m.extra coef hlen i hi
  · rw [if_neg h]
    push Not at h
    have he : m.extra.toList = [] := by
      cases hx : m.extra with
      | none => rfl
      | some e => rw [hx] at h; simp at h
    rw [he, List.append_nil] at hi hlen ⊢
    have hi0 : i = 0 := by omega
    subst hi0
    refine ⟨coef, rfl, ?_, fun k _ => by simp [start]⟩
    have hone : m.counts = [m.counts.getD 0 0] := by
      match hc : m.counts with
      | [] => rw [hc] at hi; simp at hi
      | [a] => rfl
      | a :: b :: r => rw [hc] at h; simp at h
    rw [hlen, hone]
    simp

/-- Asking for a parameter returns its block. -/
theorem get_pars_block (m : Model) (coef : List ℝ) (hf : m.coef = some coef) (hlen : coef.length = (m.counts ++ m.extra.toList).sum)
    (i : ℕ) (hi : i < nBlocks m) :
    ∃ b, getPars m (some i) none = .vec b ∧ b.length = (m.counts ++ m.extra.toList).getD i 0 ∧
      ∀ k < b.length, b[k]? = coef[start (m.counts ++ m.extra.toList) i + k]? := by
  obtain ⟨b, hb, h1, h2⟩ := subCoef_block m coef hlen i hi
  refine ⟨b, ?_, h1, h2⟩
  unfold getPars
  simp only
  rw [if_neg (by omega), hf]
  unfold getBlock
  simp only
  rw [hb]

/-- Extra coefficients are returned whatever term is asked for. -/
theorem get_pars_extra (m : Model) (coef : List ℝ) (hf : m.coef = some coef) (hlen : coef.length = (m.counts ++ m.extra.toList).sum)
    (e : ℕ) (he : m.extra = some e) (term : Option Int) :
    ∃ b, getPars m (some m.counts.length) term = .vec b ∧ b.length = e ∧ ∀ k < b.length, b[k]? = coef[m.counts.sum + k]? := by
  have hi : m.counts.length < nBlocks m := by
    unfold nBlocks
    rw [he]
    simp
  obtain ⟨b, hb, h1, h2⟩ := subCoef_block m coef hlen m.counts.length hi
  refine ⟨b, ?_, ?_, ?_⟩
  · unfold getPars
    simp only
    rw [if_neg (by omega), hf]
    unfold getBlock
    simp only
    rw [hb]
    cases term with
    | none => rfl
    | some t => simp
  · rw [h1, he]
    simp
  · intro k hk
    rw [h2 k hk]
    unfold start
    rw [List.take_left]

theorem pick_some (v : List ℝ) (idx : List ℕ) (h : ∀ a ∈ idx, a < v.length) :
    ∃ w, pick v idx = some w ∧ w.length = idx.length ∧ ∀ k (hk : k < idx.length), w[k]? = v[idx[k]]? := by
  induction idx with
  | nil => exact ⟨[], rfl, rfl, fun k hk => absurd hk (by simp)⟩
  | cons a as ih =>
    obtain ⟨w, hw, hl, hk⟩ := ih fun b hb => h b (List.mem_cons_of_mem _ hb)
    have ha : a < v.length := h a List.mem_cons_self
    refine ⟨v[a] :: w, ?_, by simp [hl], ?_⟩
    · rw [pick, List.getElem?_eq_getElem ha, hw]
    · intro k hk'
      cases k with
      | zero => simp [ha]
      | succ k => simpa using hk k (by simpa using hk')

/-- Asking for a term returns its coefficients: entry `k` is the entry of the whole vector at the start of the formula plus the
`k`-th column number of the term. -/
theorem get_pars_term (m : Model) (coef : List ℝ) (hf : m.coef = some coef) (hlen : coef.length = (m.counts ++ m.extra.toList).sum)
    (i : ℕ) (hi : i < m.counts.length) (ts : List (List ℕ)) (hts : m.terms[i]? = some ts) (t : ℕ) (idx : List ℕ) (hidx : ts[t]? = some idx)
    (hin : ∀ a ∈ idx, a < m.counts[i]) :
    ∃ b, getPars m (some i) (some t) = .vec b ∧ b.length = idx.length ∧
      ∀ k (hk : k < idx.length), b[k]? = coef[(m.counts.take i).sum + idx[k]]? := by
  have hnb : i < nBlocks m := by
    unfold nBlocks
    omega
  obtain ⟨b, hb, h1, h2⟩ := subCoef_block m coef hlen i hnb
  have hbl : b.length = m.counts[i] := by
    rw [h1, List.getD_eq_getElem _ _ (by rw [List.length_append]; omega), List.getElem_append_left hi]
  obtain ⟨w, hw, hwl, hwk⟩ := pick_some b idx fun a ha => by rw [hbl]; exact hin a ha
  refine ⟨w, ?_, hwl, fun k hk => ?_⟩
  · unfold getPars
    simp only
    rw [if_neg (by omega), hf]
    unfold getBlock
    simp only
    rw [hb]
    simp only
    rw [if_neg (by omega)]
    unfold termCoef
    rw [pyGet_nat, hts]
    simp only
    rw [pyGet_nat, hidx]
    simp only
    rw [hw]
    rfl
  · rw [hwk k hk, h2 _ (by rw [hbl]; exact hin _ (List.getElem_mem hk))]
    unfold start
    rw [List.take_append_of_le_length hi.le]

/-- Too large an index for the parameter is rejected; a term the formula does not have is, too. -/
theorem get_pars_invalid_partial (m : Model) :
    (∀ (p : ℕ) (term : Option Int), nBlocks m ≤ p → getPars m (some p) term = .raises) ∧
    (∀ (p : ℕ) (t : ℕ) (ts : List (List ℕ)) (c : List ℝ), p < m.counts.length → m.coef = some c → c.length = (m.counts ++ m.extra.toList).sum →
      m.terms[p]? = some ts → ts.length ≤ t → getPars m (some p) (some t) = .raises) := by
  refine ⟨fun p term h => ?_, fun p t ts c hp hc hlen hts ht => ?_⟩
  · unfold getPars
    simp only
    rw [if_pos (by omega)]
  · have hnb : p < nBlocks m := by
      unfold nBlocks
      omega
    obtain ⟨b, hb, -, -⟩ := subCoef_block m c hlen p hnb
    unfold getPars
    simp only
    rw [if_neg (by omega), hc]
    unfold getBlock
    simp only
    rw [hb]
    simp only
    rw [if_neg (by omega)]
    unfold termCoef
    rw [pyGet_nat, hts]
    simp only
    rw [pyGet_nat, List.getElem?_eq_none ht]
    rfl

/-- Negative indices are not rejected: with a single formula any negative number returns the whole vector. -/
theorem get_pars_negative (m : Model) (coef : List ℝ) (hf : m.coef = some coef) (n : ℕ) (h1 : m.counts = [n]) (h2 : m.extra = none) (p : Int) (hp : p < 0) :
    getPars m (some p) none = .vec coef := by
  unfold getPars
  simp only
  rw [if_neg (by omega), hf]
  unfold getBlock subCoef
  simp [h1, h2]

/-- With extra coefficients index `-1` together with a term returns extra coefficients at the columns of a term of the last formula. -/
theorem get_pars_negative_term : getPars ⟨some [10, 11, 12, 13], [2], some 2, [[[0], [1]]]⟩ (some (-1)) (some 1) = .vec [13] := by
  have h1 : splitIndex [2] (some 2) = [2] := rfl
  unfold getPars
  simp only
  rw [if_neg (by decide)]
  unfold getBlock subCoef
  simp only
  rw [h1]
  simp [npSplit, pyGet, termCoef, pick, ofOpt]

/-! ## Columns of terms -/

theorem coefIdx_get (n : ℕ) (ts : List ℕ) : ∀ i (hi : i < ts.length), (coefIdx n ts)[i]? = some (List.range' (n + start ts i) ts[i]) := by
  induction ts generalizing n with
  | nil => intro i hi; simp at hi
  | cons t ts ih =>
    intro i hi
    cases i with
    | zero => simp [coefIdx, start]
    | succ i =>
      rw [coefIdx, List.getElem?_cons_succ, ih (n + t) i (by simpa using hi)]
      simp [start, Nat.add_assoc]

/-- The columns of all terms together are `0, 1, …` in order: blocks of different terms are disjoint and contiguous. -/
theorem coefIdx_flatten (n : ℕ) (ts : List ℕ) : (coefIdx n ts).flatten = List.range' n ts.sum := by
  induction ts generalizing n with
  | nil => rfl
  | cons t ts ih =>
    rw [coefIdx, List.flatten_cons, ih, List.sum_cons]
    simp [List.range'_append]

/-! ## After coefficients were dropped -/

/-- After a drop the split index used for fitting knows nothing of extra coefficients: for two or more formulas there is one block
fewer than before, the extra coefficients staying attached to the last formula. -/
theorem drop_forgets_extra (Xs : List Mat) (h2 : 2 ≤ Xs.length) (keep : List ℕ) (hs : keep.Pairwise (· < ·)) (coef : List ℝ) (counts : List ℕ)
    (hc : counts.length = Xs.length) (e : ℕ) (v : List ℝ) :
    (npSplit v 0 (handleDropSplit Xs keep)).length = Xs.length ∧
    (npSplit coef 0 (splitIndex counts (some e))).length = Xs.length + 1 := by
  constructor
  · rw [pieces_length]
    unfold handleDropSplit dropTerms
    simp only
    obtain ⟨X, Y, Zs, rfl⟩ : ∃ X Y Zs, Xs = X :: Y :: Zs := by
      match Xs, h2 with
      | X :: Y :: Zs, _ => exact ⟨X, Y, Zs, rfl⟩
    rw [newXs, splitIdx, if_pos rfl, splitIdx_eq _ _ _ _ le_rfl (by rw [newXs_length]; simp; omega)]
    simp [ends_length, newXs_length]
  · rw [split_blocks _ _ _ (by intro h; rw [h] at hc; simp at hc; omega), hc]
    simp

/-- One formula with one kept coefficient and two extra coefficients: the likelihood testing the drop gets the extra
coefficients in two blocks. -/
theorem check_drop_single : checkDropSplit [⟨2, fun _ _ => 0⟩] [0, 2, 3] (some 2) = [1, 2] ∧
    npSplit [(5 : ℝ), 7, 8] 0 [1, 2] = [[5], [7], [8]] := by
  constructor
  · simp [checkDropSplit, dropTerms, newXs, splitIdx, cols, keepX]
  · simp [npSplit]

/-! ## Concrete cases -/

example : ∃ b, getPars ⟨some [1, 2, 3, 4, 5, 6], [3, 2], some 1, [[[0], [1, 2]], [[0, 1]]]⟩ (some ((0 : ℕ) : Int)) (some ((1 : ℕ) : Int)) = .vec b ∧ b.length = 2 :=
  let ⟨b, h, hl, _⟩ := get_pars_term ⟨some [1, 2, 3, 4, 5, 6], [3, 2], some 1, [[[0], [1, 2]], [[0, 1]]]⟩ [1, 2, 3, 4, 5, 6] rfl (by simp) 0 (by simp)
    [[0], [1, 2]] rfl 1 [1, 2] rfl (by simp)
  ⟨b, h, hl⟩

example : splitIndex [3, 2, 4] (some 2) = [3, 5, 9] := rfl

end Verif.Split
