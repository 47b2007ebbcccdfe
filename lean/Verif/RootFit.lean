import Verif.RootQr
import Verif.RootSquare
import Mathlib.Data.Fintype.Fin
import Mathlib.Data.Fintype.EquivFin

/-!
# Coefficients and factors of fits by QR decomposition (lemmas for property C109)
-/

namespace Verif.Root

open Verif.Pen Finset

/-- `qr` follows the specification whenever it succeeds. -/
def QrOk {M n : ℕ} (qr : (Fin M → Fin n → ℝ) → Option (Qr M n)) : Prop := ∀ A q, qr A = some q → Qr.Of A q

/-- What the caller of `update_coef` holds, in terms of one decomposition of the augmented matrix: `A` is the augmented matrix with columns in the order of the pivots, `pos` takes a coefficient to its pivot. -/
structure Facts {N n : ℕ} (y : Fin N → ℝ) (X : Fin N → Fin n → ℝ) (S_root : Fin n → Fin n → ℝ) (u : Upd n) where
  q : Qr (N + n) n
  A : Fin (N + n) → Fin n → ℝ
  of : Qr.Of A q
  pos : Equiv.Perm (Fin n)
  col : ∀ i j, stack X (fun i j => S_root j i) i j = A i (q.piv (pos j))
  c : ℕ → ℝ
  solves : ∀ i : Fin (N + n), i.val < q.rank → ∑ p : Fin n, q.R i p * c p = ∑ l, q.Q l i * (Fin.addCases y (fun _ => 0) : Fin (N + n) → ℝ) l
  behind : ∀ i, q.rank ≤ i → c i = 0
  coef : ∀ j, u.coef j = c (pos j)
  keep : u.keep = (List.finRange n).filter fun j => (pos j).val < q.rank
  drop : u.drop = (List.finRange n).filter fun j => ¬ (pos j).val < q.rank
  Pr : u.Pr = u.keep.map fun j => (pos j).val
  LP : ∀ a : ℕ, ∀ b : ℕ, u.LP a b = if h : b < N + n ∧ a < n then q.R ⟨b, h.1⟩ ⟨a, h.2⟩ else 0
  rank : u.rank = q.rank

theorem pivoted_lt {n : ℕ} (s : Sol n) (p : Fin n) (h : p.val < s.rank) : pivoted s p = some (s.coef p) := if_pos h

theorem pivoted_ge {n : ℕ} (s : Sol n) (p : Fin n) (h : ¬ p.val < s.rank) : pivoted s p = none := if_neg h

theorem facts {N n : ℕ} (amd : (Fin (N + n) → Fin n → ℝ) → Equiv.Perm (Fin n)) (qr : (Fin (N + n) → Fin n → ℝ) → Option (Qr (N + n) n)) (hq : QrOk qr)
    (y : Fin N → ℝ) (X : Fin N → Fin n → ℝ) (S_root : Fin n → Fin n → ℝ) (u : Upd n) (h : updateCoef amd qr y X S_root = some u) :
    ∃ f : Facts y X S_root u, qr (fun i j => stack X (fun i j => S_root j i) i (amd (stack X fun i j => S_root j i) j)) = some f.q := by
  unfold updateCoef unpivot solvePqr at h
  simp only at h
  cases e : qr fun i j => stack X (fun i j => S_root j i) i (amd (stack X fun i j => S_root j i) j) with
  | none => rw [e] at h; simp at h
  | some q =>
    rw [e] at h
    simp only [Option.map_some, Option.some.injEq] at h
    have hof := hq _ _ e
    obtain ⟨h1, h2⟩ := qr_solve hof fun i => if h : i < N + n then ∑ l, q.Q l ⟨i, h⟩ * (Fin.addCases y (fun _ => 0) : Fin (N + n) → ℝ) l else 0
    refine ⟨⟨q, _, hof, (amd (stack X fun i j => S_root j i)).symm.trans q.piv.symm, ?_, _, ?_, h2, ?_, ?_, ?_, ?_, ?_, ?_⟩, rfl⟩
    · intro i j
      simp
    · intro i hi
      rw [h1 i hi, dif_pos i.isLt]
    · intro j
      rw [← h]
      simp only
      by_cases hr : (q.piv.symm ((amd (stack X fun i j => S_root j i)).symm j)).val < q.rank
      · rw [pivoted_lt _ _ hr]
        rfl
      · rw [pivoted_ge _ _ hr, Option.getD_none]
        exact (h2 _ (not_lt.1 hr)).symm
    · rw [← h]
      simp only
      refine List.filter_congr fun j _ => ?_
      by_cases hr : (q.piv.symm ((amd (stack X fun i j => S_root j i)).symm j)).val < q.rank
      · rw [pivoted_lt _ _ hr]
        simp [hr]
      · rw [pivoted_ge _ _ hr]
        simp [hr]
    · rw [← h]
      simp only
      refine List.filter_congr fun j _ => ?_
      by_cases hr : (q.piv.symm ((amd (stack X fun i j => S_root j i)).symm j)).val < q.rank
      · rw [pivoted_lt _ _ hr]
        simp [hr]
      · rw [pivoted_ge _ _ hr]
        simp [hr]
    · rw [← h]
      rfl
    · intro a b
      rw [← h]
    · rw [← h]

variable {N n : ℕ} {y : Fin N → ℝ} {X : Fin N → Fin n → ℝ} {S_root : Fin n → Fin n → ℝ} {u : Upd n}

theorem Facts.mem_keep (f : Facts y X S_root u) (j : Fin n) : j ∈ u.keep ↔ (f.pos j).val < f.q.rank := by
  rw [f.keep, List.mem_filter]
  simp

theorem Facts.mem_drop (f : Facts y X S_root u) (j : Fin n) : j ∈ u.drop ↔ f.q.rank ≤ (f.pos j).val := by
  rw [f.drop, List.mem_filter]
  simp

theorem Facts.nodup (f : Facts y X S_root u) : u.keep.Nodup := by
  rw [f.keep]
  exact (List.nodup_finRange n).filter _

theorem Facts.length (f : Facts y X S_root u) : u.keep.length = u.rank := by
  rw [f.rank]
  have h1 : u.keep.length = u.keep.toFinset.card := (List.toFinset_card_of_nodup f.nodup).symm
  have h2 : u.keep.toFinset = (univ.filter fun p : Fin n => p.val < f.q.rank).map f.pos.symm.toEmbedding := by
    ext j
    rw [List.mem_toFinset, f.mem_keep, Finset.mem_map]
    constructor
    · intro hj
      exact ⟨f.pos j, by simpa using hj, by simp⟩
    · rintro ⟨p, hp, rfl⟩
      simpa using hp
  rw [h1, h2, Finset.card_map]
  have h3 : (univ.filter fun p : Fin n => p.val < f.q.rank) = (univ : Finset (Fin f.q.rank)).map (Fin.castLEEmb f.of.rank_le) := by
    ext p
    simp only [mem_filter, mem_univ, true_and, Finset.mem_map]
    constructor
    · intro hp
      exact ⟨⟨p, hp⟩, by ext; simp⟩
    · rintro ⟨a, rfl⟩
      simp
  rw [h3, Finset.card_map, Finset.card_univ, Fintype.card_fin]

/-- Sums over coefficients in the order of the pivots. -/
theorem Facts.sum (f : Facts y X S_root u) (β : Fin n → ℝ) (i : Fin (N + n)) :
    ∑ k, stack X (fun i j => S_root j i) i k * β k = ∑ p, f.A i (f.q.piv p) * β (f.pos.symm p) := by
  refine Eq.trans ?_ (Equiv.sum_comp f.pos _)
  refine Finset.sum_congr rfl fun k _ => ?_
  rw [f.col, Equiv.symm_apply_apply]

theorem Facts.normal (f : Facts y X S_root u) (j : Fin n) (hj : ∀ i : Fin (N + n), f.q.rank ≤ i.val → f.q.R i (f.pos j) = 0) :
    ∑ i, stack X (fun i j => S_root j i) i j * ((Fin.addCases y (fun _ => 0) : Fin (N + n) → ℝ) i - ∑ k, stack X (fun i j => S_root j i) i k * u.coef k) = 0 := by
  have := qr_resid f.of (Fin.addCases y (fun _ => 0) : Fin (N + n) → ℝ) (fun p => f.c p) f.solves (f.pos j) hj
  refine Eq.trans ?_ this
  refine Finset.sum_congr rfl fun i _ => ?_
  rw [f.col, f.sum]
  congr 2
  exact Finset.sum_congr rfl fun p _ => by rw [f.coef, Equiv.apply_symm_apply]

theorem Facts.kept (f : Facts y X S_root u) (j : Fin n) (hj : j ∈ u.keep) (i : Fin (N + n)) (hi : f.q.rank ≤ i.val) : f.q.R i (f.pos j) = 0 :=
  f.of.upper _ _ (lt_of_lt_of_le ((f.mem_keep j).1 hj) hi)

theorem sum_stack (E : Fin n → Fin n → ℝ) (g : Fin (N + n) → ℝ → ℝ) (j : Fin n) :
    ∑ i, g i (stack X E i j) = ∑ i : Fin N, g (Fin.castAdd n i) (X i j) + ∑ l : Fin n, g (Fin.natAdd N l) (E l j) := by
  rw [Fin.sum_univ_add]
  simp only [stack, Fin.addCases_left, Fin.addCases_right]

theorem stack_left (E : Fin n → Fin n → ℝ) (i : Fin N) : stack X E (Fin.castAdd n i) = X i := by
  unfold stack
  rw [Fin.addCases_left]

theorem stack_right (E : Fin n → Fin n → ℝ) (i : Fin n) : stack X E (Fin.natAdd N i) = E i := by
  unfold stack
  rw [Fin.addCases_right]

/-- Penalised sum of squares of the augmented problem. -/
theorem obj_stack (β : Fin n → ℝ) :
    ∑ i, ((Fin.addCases y (fun _ => 0) : Fin (N + n) → ℝ) i - ∑ k, stack X (fun i j => S_root j i) i k * β k) ^ 2
      = ∑ i, (y i - ∑ k, X i k * β k) ^ 2 + ∑ l, (∑ k, S_root k l * β k) ^ 2 := by
  rw [Fin.sum_univ_add]
  simp only [stack_left, stack_right, Fin.addCases_left, Fin.addCases_right]
  congr 1
  exact Finset.sum_congr rfl fun l _ => by ring

theorem ls_expand {M : ℕ} (B : Fin M → Fin n → ℝ) (v : Fin M → ℝ) (c β : Fin n → ℝ)
    (h : ∀ k, β k = c k ∨ ∑ i, B i k * (v i - ∑ l, B i l * c l) = 0) :
    ∑ i, (v i - ∑ k, B i k * β k) ^ 2 = ∑ i, (v i - ∑ k, B i k * c k) ^ 2 + ∑ i, (∑ k, B i k * (β k - c k)) ^ 2 := by
  have e : ∀ i, (v i - ∑ k, B i k * β k) ^ 2 = (v i - ∑ k, B i k * c k) ^ 2 + (∑ k, B i k * (β k - c k)) ^ 2
      - 2 * ∑ k, (β k - c k) * (B i k * (v i - ∑ l, B i l * c l)) := by
    intro i
    have e1 : ∑ k, B i k * (β k - c k) = ∑ k, B i k * β k - ∑ k, B i k * c k := by
      rw [← Finset.sum_sub_distrib]
      exact Finset.sum_congr rfl fun k _ => by ring
    have e2 : ∑ k, (β k - c k) * (B i k * (v i - ∑ l, B i l * c l)) = (∑ k, B i k * (β k - c k)) * (v i - ∑ l, B i l * c l) := by
      rw [Finset.sum_mul]
      exact Finset.sum_congr rfl fun k _ => by ring
    rw [e2, e1]
    ring
  rw [Finset.sum_congr rfl fun i _ => e i, Finset.sum_sub_distrib, Finset.sum_add_distrib, ← Finset.mul_sum, Finset.sum_comm]
  have z : ∑ k, ∑ i, (β k - c k) * (B i k * (v i - ∑ l, B i l * c l)) = 0 := by
    refine Finset.sum_eq_zero fun k _ => ?_
    rw [← Finset.mul_sum]
    rcases h k with h | h
    · rw [h]; ring
    · rw [h]; ring
  rw [z]
  ring

/-- Coefficients with the same fitted values and without the dropped ones are the same. -/
theorem Facts.indep (f : Facts y X S_root u) (d : Fin n → ℝ) (hd : ∀ j ∈ u.drop, d j = 0) (h : ∀ i, ∑ k, stack X (fun i j => S_root j i) i k * d k = 0) : d = 0 := by
  have := qr_indep f.of (fun p => d (f.pos.symm p)) ?_ ?_
  · funext j
    have := congrFun this (f.pos j)
    simpa using this
  · intro p hp
    exact hd _ ((f.mem_drop _).2 (by simpa using hp))
  · intro i
    rw [← f.sum]
    exact h i

theorem factor_eq (f : Facts y X S_root u) (a b : ℕ) (i j : Fin n) (ha : u.keep[a]? = some i) (hb : u.keep[b]? = some j) :
    factor u i j = u.LP (f.pos i) b := by
  have hal : a < u.keep.length := (List.getElem?_eq_some_iff.1 ha).1
  have hbl : b < u.keep.length := (List.getElem?_eq_some_iff.1 hb).1
  unfold factor
  change ∑ a' ∈ range u.rank, ∑ b' ∈ range u.rank, (if u.keep[a']? = some i ∧ u.keep[b']? = some j then u.LP (u.Pr.getD a' 0) b' else 0) = _
  rw [← f.length, Finset.sum_eq_single a, Finset.sum_eq_single b, if_pos ⟨ha, hb⟩]
  · congr 1
    rw [f.Pr, List.getD_eq_getElem?_getD, List.getElem?_map, ha]
    rfl
  · intro b' _ hne
    refine if_neg fun hh => hne ?_
    exact List.getElem?_inj (by exact (List.getElem?_eq_some_iff.1 hh.2).1) f.nodup |>.1 (hh.2.trans hb.symm)
  · intro hh
    exact absurd (mem_range.2 hbl) hh
  · intro a' _ hne
    refine Finset.sum_eq_zero fun b' _ => if_neg fun hh => hne ?_
    exact List.getElem?_inj (by exact (List.getElem?_eq_some_iff.1 hh.1).1) f.nodup |>.1 (hh.1.trans ha.symm)
  · intro hh
    exact absurd (mem_range.2 hal) hh

theorem factor_zero (u : Upd n) (i j : Fin n) (h : i ∉ u.keep ∨ j ∉ u.keep) : factor u i j = 0 := by
  unfold factor
  refine List.sum_eq_zero fun x hx => ?_
  obtain ⟨a, -, rfl⟩ := List.mem_map.1 hx
  refine List.sum_eq_zero fun x hx => ?_
  obtain ⟨b, -, rfl⟩ := List.mem_map.1 hx
  refine if_neg fun hh => ?_
  rcases h with h | h
  · exact h (List.mem_of_getElem? hh.1)
  · exact h (List.mem_of_getElem? hh.2)

theorem Facts.square (f : Facts y X S_root u) (i j : Fin n) (hi : i ∈ u.keep) (hj : j ∈ u.keep) :
    ∑ l, factor u i l * factor u j l = ∑ r, X r i * X r j + ∑ l, S_root i l * S_root j l := by
  obtain ⟨a, ha⟩ := List.mem_iff_getElem?.1 hi
  obtain ⟨c, hc⟩ := List.mem_iff_getElem?.1 hj
  have e0 : ∑ r, X r i * X r j + ∑ l, S_root i l * S_root j l = ∑ l, f.q.R l (f.pos i) * f.q.R l (f.pos j) := by
    rw [← qr_gram f.of, Fin.sum_univ_add]
    simp only [← f.col, stack_left, stack_right]
  have e1 : ∑ l, factor u i l * factor u j l = ∑ l ∈ u.keep.toFinset, factor u i l * factor u j l := by
    symm
    refine Finset.sum_subset (Finset.subset_univ _) fun l _ hl => ?_
    rw [factor_zero u i l (Or.inr fun hh => hl (List.mem_toFinset.2 hh)), zero_mul]
  rw [e0, e1, List.sum_toFinset _ f.nodup]
  have hM := f.of.rank_rows
  rw [← sum_list u.keep (fun b => if h : b < N + n then f.q.R ⟨b, h⟩ (f.pos i) * f.q.R ⟨b, h⟩ (f.pos j) else 0), f.length, f.rank]
  · have hi' := (f.mem_keep i).1 hi
    rw [← Nat.Ico_zero_eq_range, ← sum_fin_ico (n := N + n) (fun b => if h : b < N + n then f.q.R ⟨b, h⟩ (f.pos i) * f.q.R ⟨b, h⟩ (f.pos j) else 0) 0 f.q.rank hM]
    · refine Finset.sum_congr rfl fun l _ => ?_
      rw [dif_pos l.isLt]
    · intro b hb
      split_ifs with h
      · rw [f.of.upper ⟨b, h⟩ (f.pos i) (by simp only; omega), zero_mul]
      · rfl
  · intro b l hb
    have hbl : b < u.keep.length := (List.getElem?_eq_some_iff.1 hb).1
    have hbM : b < N + n := by rw [f.length, f.rank] at hbl; omega
    rw [factor_eq f a b i l ha hb, factor_eq f c b j l hc hb, f.LP, f.LP, dif_pos hbM, dif_pos (show b < N + n ∧ (f.pos i).val < n from ⟨hbM, (f.pos i).isLt⟩),
      dif_pos (show b < N + n ∧ (f.pos j).val < n from ⟨hbM, (f.pos j).isLt⟩)]

end Verif.Root
