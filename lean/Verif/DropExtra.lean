import Verif.DropExtraModel
import Verif.Drop

/-!
# C96: dropping coefficients of models with extra coefficients
-/

namespace Verif.Drop
open Finset

/-- Split positions of at least two formulas: ends of all reduced matrices but the last. -/
theorem dropTerms_split (Xs : List Mat) (keep : List ℕ) (hs : keep.Pairwise (· < ·)) (hl : 2 ≤ Xs.length) :
    (dropTerms Xs keep).2 = ((ends 0 Xs).map (cnt keep)).dropLast := by
  obtain ⟨X, Xs', rfl⟩ := List.exists_cons_of_length_pos (show 0 < Xs.length by omega)
  have h0 : Xs' ≠ [] := by rintro rfl; simp at hl
  have hends := ends_newXs keep hs (X :: Xs') 0
  rw [cnt_zero] at hends
  rw [← hends]
  unfold dropTerms
  dsimp only
  rw [newXs, splitIdx, if_pos rfl, List.nil_append]
  rw [splitIdx_eq _ _ _ _ (le_refl 1) (by rw [newXs_length]; simp; omega)]
  rw [ends, Nat.zero_add, Nat.zero_add]
  have hne : ends (cols X (keepX keep 0 X.w)).w (newXs keep Xs' X.w) ≠ [] := by
    intro h
    have := congrArg List.length h
    rw [ends_length, newXs_length] at this
    exact h0 (List.length_eq_zero_iff.1 this)
  rw [List.dropLast_cons_of_ne_nil hne]
  simp

theorem endsMap_get (Xs : List Mat) (keep : List ℕ) (j : ℕ) (hj : j < Xs.length) :
    ((ends 0 Xs).map (cnt keep)).getD j 0 = cnt keep (off Xs (j + 1)) := by
  rw [List.getD_eq_getElem _ _ (by rw [List.length_map, ends_length]; exact hj), List.getElem_map,
    ← List.getD_eq_getElem (ends 0 Xs) 0, ends_get 0 Xs j hj, Nat.zero_add]

theorem npSplit_length {α : Type} (l : List α) (idx : List ℕ) (a : ℕ) :
    (npSplit l a idx).length = idx.length + 1 := by
  induction idx generalizing a with
  | nil => rfl
  | cons b bs ih => simp [npSplit, ih]

theorem width_get (Xs : List Mat) (keep : List ℕ) (hs : keep.Pairwise (· < ·)) (i : ℕ) (hi : i < Xs.length) :
    ∃ X', (dropTerms Xs keep).1[i]? = some X' ∧ X'.w = cnt keep (off Xs (i + 1)) - cnt keep (off Xs i) := by
  have h1 := newXs_get keep Xs 0 i hi
  rw [Nat.zero_add] at h1
  refine ⟨_, h1, ?_⟩
  rw [off_succ Xs i hi]
  exact keepX_length keep hs _ _

theorem checkSplit_eq (Xs : List Mat) (keep : List ℕ) (hs : keep.Pairwise (· < ·)) (hl : 2 ≤ Xs.length) :
    checkSplit Xs keep = (ends 0 Xs).map (cnt keep) := by
  have hne : (ends 0 Xs).map (cnt keep) ≠ [] := by
    intro h
    have := congrArg List.length h
    rw [List.length_map, ends_length] at this
    simp at this
    simp [this] at hl
  have hEl : ((ends 0 Xs).map (cnt keep)).length = Xs.length := by rw [List.length_map, ends_length]
  unfold checkSplit
  dsimp only
  rw [dropTerms_split Xs keep hs hl]
  obtain ⟨X', hX, hw⟩ := width_get Xs keep hs (Xs.length - 1) (by omega)
  have hlast : ((dropTerms Xs keep).1.getLastD ⟨0, fun _ _ => 0⟩) = X' := by
    have hlen : (dropTerms Xs keep).1.length = Xs.length := newXs_length keep Xs 0
    rw [List.getLastD_eq_getLast?, List.getLast?_eq_getElem?, hlen, hX]
    rfl
  rw [hlast, hw]
  have hg : ((ends 0 Xs).map (cnt keep)).dropLast.getLastD 0 = cnt keep (off Xs (Xs.length - 1)) := by
    have := endsMap_get Xs keep (Xs.length - 2) (by omega)
    rw [show Xs.length - 2 + 1 = Xs.length - 1 by omega] at this
    rw [← this, List.getLastD_eq_getLast?, List.getLast?_eq_getElem?, List.length_dropLast, hEl,
      List.getElem?_dropLast, hEl, if_pos (by omega), show Xs.length - 1 - 1 = Xs.length - 2 by omega,
      List.getD_eq_getElem?_getD]
  rw [hg]
  have hm := cnt_mono keep (off_mono Xs (show Xs.length - 1 ≤ Xs.length - 1 + 1 by omega))
  rw [Nat.sub_add_cancel hm]
  have h2 := endsMap_get Xs keep (Xs.length - 1) (by omega)
  rw [← h2]
  conv_rhs => rw [← List.dropLast_append_getLast hne]
  congr 2
  rw [List.getLast_eq_getElem, List.getD_eq_getElem _ _ (by rw [hEl]; omega)]
  congr 1
  rw [hEl]

/-- **C96, part.** The check before dropping evaluates the log-likelihood with the right pieces: with two or
more formulas, every formula's piece of the kept coefficients fits its reduced model matrix and the last
piece holds exactly the extra coefficients.  Missing: the iterations that follow use other split positions
(`handle_split_wrong`). -/
theorem check_split_partial (Xs : List Mat) (keep : List ℕ) (hs : keep.Pairwise (· < ·)) (hl : 2 ≤ Xs.length)
    (v : List ℝ) (hv : v.length = keep.length) :
    (∀ i, i < Xs.length → ∃ X' part, (dropTerms Xs keep).1[i]? = some X' ∧
      (npSplit v 0 (checkSplit Xs keep))[i]? = some part ∧ part.length = X'.w) ∧
    (npSplit v 0 (checkSplit Xs keep)).length = Xs.length + 1 ∧
    (npSplit v 0 (checkSplit Xs keep))[Xs.length]? =
      some (v.drop (keep.filter fun a => decide (a < off Xs Xs.length)).length) := by
  rw [checkSplit_eq Xs keep hs hl]
  have hEl : ((ends 0 Xs).map (cnt keep)).length = Xs.length := by rw [List.length_map, ends_length]
  have hst : ∀ j, j ≤ Xs.length → (0 :: (ends 0 Xs).map (cnt keep)).getD j 0 = cnt keep (off Xs j) := by
    intro j hj
    cases j with
    | zero => simp [off, cnt_zero]
    | succ j => rw [List.getD_cons_succ, endsMap_get Xs keep j (by omega)]
  refine ⟨fun i hi => ?_, by rw [npSplit_length, hEl], ?_⟩
  · obtain ⟨X', hX, hw⟩ := width_get Xs keep hs i hi
    refine ⟨X', _, hX, npSplit_get v _ 0 i (by rw [hEl]; exact hi), ?_⟩
    rw [hst i (by omega), endsMap_get Xs keep i hi, hw, List.length_take, List.length_drop, hv]
    have := cnt_le keep (off Xs (i + 1))
    omega
  · have := npSplit_last v ((ends 0 Xs).map (cnt keep)) 0
    rw [hEl, hst Xs.length le_rfl] at this
    exact this

/-- **C96 is wrong.** With two or more formulas and at least one extra coefficient the split positions used
after dropping have no piece for the extra coefficients: there are as many pieces as formulas, and the last
formula's piece is longer than its reduced matrix has columns, so that their product raises. -/
theorem handle_split_wrong (Xs : List Mat) (keep : List ℕ) (hs : keep.Pairwise (· < ·)) (hl : 2 ≤ Xs.length)
    (v : List ℝ) (hv : v.length = keep.length) (hx : ∃ a ∈ keep, off Xs Xs.length ≤ a) :
    (npSplit v 0 (handleSplit Xs keep)).length = Xs.length ∧
    ∃ X' part, (dropTerms Xs keep).1[Xs.length - 1]? = some X' ∧
      (npSplit v 0 (handleSplit Xs keep))[Xs.length - 1]? = some part ∧ X'.w < part.length := by
  unfold handleSplit
  have hEl : ((ends 0 Xs).map (cnt keep)).length = Xs.length := by rw [List.length_map, ends_length]
  rw [dropTerms_split Xs keep hs hl]
  have hDl : ((ends 0 Xs).map (cnt keep)).dropLast.length = Xs.length - 1 := by rw [List.length_dropLast, hEl]
  refine ⟨by rw [npSplit_length, hDl]; omega, ?_⟩
  obtain ⟨X', hX, hw⟩ := width_get Xs keep hs (Xs.length - 1) (by omega)
  have h1 := npSplit_last v ((ends 0 Xs).map (cnt keep)).dropLast 0
  rw [hDl] at h1
  have hst : (0 :: ((ends 0 Xs).map (cnt keep)).dropLast).getD (Xs.length - 1) 0 =
      cnt keep (off Xs (Xs.length - 1)) := by
    have := endsMap_get Xs keep (Xs.length - 2) (by omega)
    rw [show Xs.length - 1 = (Xs.length - 2) + 1 by omega, List.getD_cons_succ, ← this,
      List.getD_eq_getElem?_getD, List.getElem?_dropLast, hEl, if_pos (by omega), List.getD_eq_getElem?_getD]
  rw [hst] at h1
  refine ⟨X', _, hX, h1, ?_⟩
  rw [hw, List.length_drop, hv, show Xs.length - 1 + 1 = Xs.length by omega]
  obtain ⟨a, ha, hoa⟩ := hx
  have hlt : cnt keep (off Xs Xs.length) < keep.length := by
    unfold cnt
    apply List.length_filter_lt_length_iff_exists.2
    exact ⟨a, ha, by simpa using hoa⟩
  have hm := cnt_mono keep (off_mono Xs (show Xs.length - 1 ≤ Xs.length by omega))
  omega

/-- **C96 is wrong with one formula.** There the check adds the width twice: its split positions end beyond
the coefficients of the formula and the extra coefficients are not the last piece. -/
theorem check_single_wrong (X : Mat) (keep : List ℕ) :
    checkSplit [X] keep = [(keepX keep 0 X.w).length, 2 * (keepX keep 0 X.w).length] ∧
    handleSplit [X] keep = [(keepX keep 0 X.w).length] := by
  constructor
  · simp [checkSplit, dropTerms, newXs, splitIdx, cols]
    omega
  · simp [handleSplit, dropTerms, newXs, splitIdx, cols]

/-- **C96 is wrong with left out matrices.** Dropping raises whenever a matrix was not built. -/
theorem drop_none_wrong (Xs : List (Option Mat)) (keep : List ℕ) (h : none ∈ Xs) :
    ∃ e, dropTermsOpt Xs keep = .error e := by
  unfold dropTermsOpt
  have : Xs.mapM id = none := by
    induction Xs with
    | nil => simp at h
    | cons x Xs ih =>
      cases x with
      | none => rfl
      | some x =>
        have h' : none ∈ Xs := by simpa using h
        simp [List.mapM_cons, ih h']
  rw [this]
  exact ⟨_, rfl⟩

/-- Without them it is `drop_terms_X`. -/
theorem drop_some (Xs : List Mat) (keep : List ℕ) :
    dropTermsOpt (Xs.map some) keep = .ok (dropTerms Xs keep) := by
  unfold dropTermsOpt
  have : (Xs.map some).mapM id = some Xs := by
    induction Xs with
    | nil => rfl
    | cons x Xs ih => simp [List.mapM_cons, ih]
  rw [this]

/-- Two formulas with two columns each, three extra coefficients, the second coefficient dropped. -/
example :
    checkSplit [⟨2, fun _ _ => 1⟩, ⟨2, fun _ _ => 1⟩] [0, 2, 3, 4, 5, 6] = [1, 3] ∧
    handleSplit [⟨2, fun _ _ => 1⟩, ⟨2, fun _ _ => 1⟩] [0, 2, 3, 4, 5, 6] = [1] ∧
    npSplit [10, 20, 30, 40, 50, 60] 0 [1, 3] = [[10], [20, 30], [40, 50, 60]] ∧
    npSplit [10, 20, 30, 40, 50, 60] 0 [1] = [[10], [20, 30, 40, 50, 60]] := by
  refine ⟨?_, ?_, ?_, ?_⟩ <;> simp [checkSplit, handleSplit, dropTerms, newXs, splitIdx, cols, keepX, npSplit]

end Verif.Drop
