import Verif.HsmmRelFam
import Verif.HsmmRelDec
import Verif.HsmmFam

/-! Cases that meet the hypotheses of the theorems on renumbered states (C128). -/

namespace Verif.Relab
open Verif.Hsmm Verif.HFam

/-- Two states that start with probability 1/4 and 3/4. -/
noncomputable def uneven : Tables ℝ :=
  { Hsmm.demo with ends_in_last := false, pi := fun j => if j = 0 then 1 / 4 else 3 / 4, bs2 := fun t j => t + j + 1 }

/-- Exchanging the states of `uneven` gives other tables. -/
example : Ok (Equiv.swap 0 1) uneven ∧ relab (Equiv.swap 0 1) uneven ≠ uneven ∧
    llk (relab (Equiv.swap 0 1) uneven) = llk uneven := by
  refine ⟨swap_ok rfl rfl rfl, fun h => ?_, llk_relab (swap_ok rfl rfl rfl)⟩
  have h1 : (relab (Equiv.swap 0 1) uneven).pi 0 = uneven.pi 0 := by rw [h]
  have h2 : uneven.pi ((Equiv.swap (0 : ℕ) 1).symm 0) = uneven.pi 0 := h1
  rw [Equiv.symm_swap, Equiv.swap_apply_left] at h2
  norm_num [uneven] at h2

/-- Means of one signal, and the same means with the states exchanged. -/
example : Ok (Equiv.swap 0 1) uneven ∧
    MusRelab (Equiv.swap 0 1) 3 1 2 (fun k => if k < 3 then 5 else 7) (fun k => if k < 3 then 7 else 5) := by
  refine ⟨swap_ok rfl rfl rfl, fun t sig j ht hs hj => ?_⟩
  have h1 : sig = 0 := by omega
  have h2 : j = 0 ∨ j = 1 := by omega
  subst h1
  rcases h2 with rfl | rfl
  · rw [Equiv.swap_apply_left]
    have : ¬ t + 3 < 3 := by omega
    simp [musAt, this, ht]
  · rw [Equiv.swap_apply_right]
    have : ¬ t + 3 < 3 := by omega
    simp [musAt, this, ht]

/-- An event model with three states: the two flats can be exchanged, the event keeps its odd number. -/
noncomputable def event : Tables ℝ := { Hsmm.demo with n_S := 3, hmp := true, ends_in_last := false }

example : Ok (Equiv.swap 0 2) event := by
  have e0 : Equiv.swap 0 2 0 = 2 := Equiv.swap_apply_left _ _
  have e1 : Equiv.swap 0 2 2 = 0 := Equiv.swap_apply_right _ _
  have hs : ∀ j, j ≠ 0 → j ≠ 2 → Equiv.swap 0 2 j = j := fun j => Equiv.swap_apply_of_ne_of_ne
  refine ⟨fun j => ?_, fun _ j => ?_, fun h => by simp [event] at h⟩
  · show Equiv.swap 0 2 j < 3 ↔ j < 3
    by_cases h0 : j = 0
    · subst h0; rw [e0]; omega
    · by_cases h2 : j = 2
      · subst h2; rw [e1]; omega
      · rw [hs j h0 h2]
  · by_cases h0 : j = 0
    · subst h0; rw [e0]
    · by_cases h2 : j = 2
      · subst h2; rw [e1]
      · rw [hs j h0 h2]

/-- Two time points, two states that last one time point each; the first one starts more often. -/
noncomputable def firstWins : Tables (WithBot ℝ) :=
  { tie with n_T := 2, D := 2, pi := fun j => if j = 0 then 0 else ((-1 : ℝ) : WithBot ℝ) }

theorem firstWins_seg {l : List Seg} (h : Admissible firstWins l) : l = [⟨1, 0, 1⟩, ⟨0, 0, 0⟩] ∨ l = [⟨1, 0, 0⟩, ⟨0, 0, 1⟩] := by
  obtain ⟨hc, hok, a, r, rfl, h1, h2, -, -⟩ := h
  have hdur : ∀ g ∈ a :: r, g.dur = 0 ∧ g.state < 2 := fun g hg => by
    have := hok g hg
    have h3 : g.dur < 1 := this.2.1
    exact ⟨by omega, this.1⟩
  have hT : firstWins.n_T = 2 := rfl
  have ha := hdur a (by simp)
  cases r with
  | nil =>
    have : a.start = 0 := hc
    omega
  | cons b r =>
    obtain ⟨k1, k2, k3⟩ := hc
    have hb := hdur b (by simp)
    cases r with
    | nil =>
      have k4 : b.start = 0 := k3
      obtain ⟨as, ad, aj⟩ := a
      obtain ⟨bs, bd, bj⟩ := b
      simp only at *
      have h5 : as = 1 := by omega
      obtain ⟨rfl, ha2⟩ := ha
      obtain ⟨rfl, hb2⟩ := hb
      subst h5 k4
      have : (aj = 1 ∧ bj = 0) ∨ (aj = 0 ∧ bj = 1) := by omega
      rcases this with ⟨rfl, rfl⟩ | ⟨rfl, rfl⟩
      · left; rfl
      · right; rfl
    | cons c r =>
      have hc0 := hdur c (by simp)
      have := k3.1
      omega

theorem firstWins_adm : Admissible firstWins [⟨1, 0, 1⟩, ⟨0, 0, 0⟩] := by
  refine ⟨⟨rfl, by decide, rfl⟩, ?_, _, _, rfl, by decide, by decide, by simp [firstWins, tie], by simp [firstWins, tie]⟩
  intro g hg
  simp at hg
  rcases hg with rfl | rfl <;> simp [SegOk, firstWins, tie]

/-- The hypotheses of `viterbi_relab_partial` hold, including the one on a unique best segmentation. -/
example : Ok (Equiv.swap 0 1) firstWins ∧ HmpOk firstWins ∧ 0 < firstWins.n_T ∧
    (∃ l, Admissible firstWins l ∧ logWeight firstWins l ≠ ⊥) ∧ ∀ l l', Best firstWins l → Best firstWins l' → l = l' := by
  have w1 : logWeight firstWins [⟨1, 0, 1⟩, ⟨0, 0, 0⟩] = 0 := by
    simp [logWeight, logWeightUpTo, obsSum, obs, Tables.T, Tables.ds, firstWins, tie, Tables.dcol]
  have w2 : logWeight firstWins [⟨1, 0, 0⟩, ⟨0, 0, 1⟩] = ((-1 : ℝ) : WithBot ℝ) := by
    simp [logWeight, logWeightUpTo, obsSum, obs, Tables.T, Tables.ds, firstWins, tie, Tables.dcol]
  have key : ∀ l, Best firstWins l → l = [⟨1, 0, 1⟩, ⟨0, 0, 0⟩] := by
    rintro l ⟨ha, hb⟩
    rcases firstWins_seg ha with h | h
    · exact h
    · have := hb _ firstWins_adm
      rw [h, w1, w2] at this
      have h2 : (0 : ℝ) ≤ -1 := WithBot.coe_le_coe.1 this
      norm_num at h2
  exact ⟨swap_ok rfl rfl rfl, fun h => absurd h (by decide), by decide, ⟨_, firstWins_adm, by rw [w1]; exact WithBot.coe_ne_bot⟩,
    fun l l' h h' => (key l h).trans (key l' h').symm⟩

/-- Three states with free transitions and initial distribution: exchanging the first and the last moves every reference state. -/
example (β : Coef) : SameX HFam.demo ∧ (∀ j, Equiv.swap 0 2 j < HFam.demo.n_S ↔ j < HFam.demo.n_S) ∧ 2 < HFam.demo.n_S ∧
    seriesLlk (relabM (Equiv.swap 0 2) HFam.demo) (relabC (Equiv.swap 0 2) 3 β) = seriesLlk HFam.demo β := by
  have hx : SameX HFam.demo := ⟨fun _ _ _ _ => rfl, fun _ _ _ _ => rfl, fun _ _ => rfl, fun _ _ => rfl⟩
  have hb : ∀ j, Equiv.swap 0 2 j < HFam.demo.n_S ↔ j < HFam.demo.n_S := by
    intro j
    show Equiv.swap 0 2 j < 3 ↔ j < 3
    by_cases h0 : j = 0
    · subst h0; rw [Equiv.swap_apply_left]; omega
    · by_cases h2 : j = 2
      · subst h2; rw [Equiv.swap_apply_right]; omega
      · rw [Equiv.swap_apply_of_ne_of_ne h0 h2]
  exact ⟨hx, hb, by decide, seriesLlk_relab hb (fun h => by simp [HFam.demo] at h) fun _ => hx⟩

end Verif.Relab
