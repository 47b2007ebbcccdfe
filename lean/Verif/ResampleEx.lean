import Verif.Resample

/-! Cases meeting the hypotheses of the theorems of C135. -/

namespace Verif.Rsm

open Matrix Verif.Compact Verif.Secant

/-- Two formulas: intercept and slope with a factor smooth; intercept only. -/
def exForms : List Form := [⟨5, [(false, [0]), (false, [1]), (true, [2, 3, 4])]⟩, ⟨1, [(false, [0])]⟩]

theorem exForms_ok : FormsOk exForms := by
  intro f hf
  simp only [exForms, List.mem_cons, List.not_mem_nil, or_false] at hf
  rcases hf with rfl | rfl <;> exact ⟨by decide, by decide⟩

example : candidates exForms 1 = [0, 1, 5, 6] ∧ total exForms + 1 = 7 := by decide

theorem take_choice : Choice fun l k => l.take k := fun l k hk =>
  ⟨l.take k, List.take_sublist k l, by simpa using hk, List.Perm.refl _⟩

theorem unique_eq {l m : List ℕ} (hm : m.Pairwise (· < ·)) (h : l.toFinset = m.toFinset) : unique l = m := by
  unfold unique
  rw [h]
  exact (List.toFinset_sort (· ≤ ·) (hm.imp ne_of_lt)).mpr (hm.imp le_of_lt)

/-- Two of four columns, in ascending order. -/
example : fcols (fun l k => (l.take k).reverse) true (.count 2) [0, 1, 5, 6] 7 = some [0, 1] := by
  have e : unique [1, 0] = [0, 1] := unique_eq (by decide) (by decide)
  simp [fcols, pick, colsBudget, e]

example (l : List ℕ) (h : fcols (fun l k => l.take k) true (.count 2) (candidates exForms 1) 7 = some l) :
    l.length = 2 ∧ l.length < 7 := by
  obtain ⟨h1, h2⟩ := candidates_ok exForms 1 exForms_ok
  obtain ⟨_, _, _, e4, e5, _⟩ := fcols_spec take_choice h1 h2 (b := .count 2) trivial h
  exact ⟨e5.trans (by simp only [colsBudget]; decide), e4⟩

/-- All coefficients are candidates: one is left to the quasi-Newton update. -/
example : fcols (fun l k => l.take k) true (.count 9) [0, 1, 2] 3 = some [0, 1] := by
  have e : unique [0, 1] = [0, 1] := unique_eq (by decide) (by decide)
  simp [fcols, pick, colsBudget, e]

example : 1 ≤ nVectors (1 / 2) 7 (some [0, 1]) ∧ nVectors (1 / 2) 7 (some [0, 1]) ≤ 7 - 2 :=
  nVectors_range (by norm_num) (by simp)

/-- Sampling with seed 3 gives no pair, with other seeds one pair. -/
noncomputable def exSamp (s : ℕ) : Samp 2 := quadEx (if s = 3 then ![1, 0] else ![1, 1])

theorem exSamp_three : ((exSamp 3).draw fun _ => none).2 = 0 := by
  show ((quadEx (if 3 = 3 then ![1, 0] else ![1, 1])).draw fun _ => none).2 = 0
  rw [if_pos rfl, draw_nothing_iff _ _ rfl]
  intro k _
  simp [quadEx, Samp.radius, Samp.step0, Samp.LV, dotProduct, Fin.sum_univ_two]

theorem exSamp_four : ((exSamp 4).draw fun _ => none).2 ≠ 0 := by
  show ((quadEx (if 4 = 3 then ![1, 0] else ![1, 1])).draw fun _ => none).2 ≠ 0
  rw [if_neg (by decide), Ne, draw_nothing_iff _ _ rfl]
  intro h
  have := h 0 (by simp [quadEx])
  simp [quadEx, Samp.radius, Samp.step0, Samp.LV, dotProduct, Fin.sum_univ_two] at this
  norm_num at this

def exTc : Fin 1 ⊕ Fin 1 → Fin 2 := Sum.elim (fun _ => 0) (fun _ => 1)

theorem exTc_bij : Function.Bijective exTc := by
  constructor
  · rintro (i | i) (j | j) h <;> simp [exTc] at h ⊢ <;> exact Subsingleton.elim _ _
  · intro i
    fin_cases i
    · exact ⟨Sum.inl 0, rfl⟩
    · exact ⟨Sum.inr 0, rfl⟩

/-- The first column by finite differences; at least one update is asked for, starting with seed 3. -/
noncomputable def exArgs (pen : Bool) : Args 2 1 1 where
  tc := some exTc
  blk := blkAt exTc (fun _ => !![-1, 0; 0, 0]) (fun _ => ⟨1, ![1]⟩) (1 / 10) 1 true ![1, 1]
  penalised := pen
  passed := true
  force := 1
  seed := 3
  sample := fun s => (exSamp s).draw fun _ => none
  edf := fun _ => (3 / 2, [1 / 2])

/-- The second attempt is the last one. -/
theorem exArgs_second (pen : Bool) : attempts (exArgs pen).sample (exArgs pen).force 29 (exArgs pen).seed = (exSamp 4).draw fun _ => none := by
  obtain ⟨k, hk, h1, h2, h3⟩ := attempts_spec (exArgs pen).sample (exArgs pen).force (exArgs pen).seed
  have h4 : 0 < ((exSamp 4).draw fun _ => none).2 := Nat.pos_of_ne_zero exSamp_four
  have hk1 : k = 1 := by
    by_contra hne
    rcases Nat.lt_or_gt_of_ne hne with h | h
    · have h0 : k = 0 := by omega
      subst h0
      rcases h3 with h3 | h3
      · have : 1 ≤ ((exSamp 3).draw fun _ => none).2 := h3
        rw [exSamp_three] at this
        omega
      · omega
    · have := h2 1 h
      have : ((exSamp 4).draw fun _ => none).2 < 1 := this
      omega
  rw [h1, hk1]
  rfl

theorem exArgs_pos (pen : Bool) (o : Op 2 1) : 0 < ((exArgs pen).run o).2.1 := by
  have h4 : 0 < ((exSamp 4).draw fun _ => none).2 := Nat.pos_of_ne_zero exSamp_four
  unfold Args.run
  dsimp only
  rw [exArgs_second, if_pos h4]
  cases pen
  · exact h4
  · exact h4

example (o : Op 2 1) : ((exArgs true).run o).2.1 = ((exArgs true).run o).1.pairs.length ∧ ((exArgs true).run o).1.sampled = true :=
  have h := sampled_secant (exArgs true) o (tc := exTc) rfl exTc_bij (jh := fun _ => !![-1, 0; 0, 0]) (coef := ![1, 1])
    (eig := fun _ => ⟨1, ![1]⟩) (thresh := 1 / 10) (damp := 1) (pd := true) rfl (fun _ _ => by simp [exTc]) (chol := fun _ => none)
    (p := exSamp) (fun _ => rfl) (grad := fun b => ![-b 0, -2 * b 1]) (fun _ => ⟨rfl, rfl⟩) (exArgs_pos true o)
  ⟨h.1, h.2.1⟩

/-- Nothing sampled: the operator is kept. -/
example (o : Op 2 1) : ({ exArgs true with force := 0 }.run o).1 = o := by
  refine (unchanged _ o ?_).1
  have e : attempts (t := 2) (fun s => (exSamp s).draw fun _ => none) 0 29 3 = (exSamp 3).draw fun _ => none := by
    rw [attempts, if_neg (by omega)]
  show Prod.fst (Prod.snd (Args.run _ o)) = 0
  unfold Args.run
  show (if 0 < (attempts (t := 2) (fun s => (exSamp s).draw fun _ => none) 0 29 3).2 then _ else _ : Op 2 1 × ℕ × Option ℝ × Option (List ℝ)).2.1 = 0
  rw [e, if_neg (by rw [exSamp_three]; omega)]
  show (attempts (t := 2) (fun s => (exSamp s).draw fun _ => none) 0 29 3).2 = 0
  rw [e, exSamp_three]

example (o : Op 2 1) : finalEdf (exArgs true) o 2 true = some (3 / 2) := by
  rw [edf_partial _ _ _ _ rfl rfl, if_pos ⟨rfl, exArgs_pos true o⟩]
  rfl

example (o : Op 2 1) : finalEdf (exArgs false) o 2 true = none :=
  (edf_wrong (exArgs false) o 2 rfl (by rw [exArgs_second]; exact Nat.pos_of_ne_zero exSamp_four)).1

end Verif.Rsm
