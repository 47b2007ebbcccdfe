import Verif.Redund

/-!
# Cases for C143
-/

namespace Verif.Red
open Verif.Drop Matrix

variable {n : ℕ}

theorem spread_map (keep : List ℕ) (f : ℕ → ℝ) (i : ℕ) : spread keep (keep.map f) i = if i ∈ keep then f i else 0 := by
  unfold spread
  by_cases hi : i ∈ keep
  · rw [if_pos hi]
    cases hk : keep.idxOf? i with
    | none => exact absurd hi (List.idxOf?_eq_none_iff.1 hk)
    | some j =>
      obtain ⟨hl, he, -⟩ := List.findIdx?_eq_some_iff_getElem.1 hk
      have : keep[j] = i := by simpa using he
      simp [hl, this]
  · rw [List.idxOf?_eq_none_iff.2 hi]
    simp [hi]

open Classical in
/-- A null vector of the rows and columns kept. -/
noncomputable def nullVec (M : Matrix (Fin n) (Fin n) ℝ) (keep : List ℕ) : List ℝ :=
  if h : Singular M keep then keep.map fun i => if hi : i < n then h.choose ⟨i, hi⟩ else 0 else [1]

theorem nullVec_spec {M : Matrix (Fin n) (Fin n) ℝ} {keep : List ℕ} (h : Singular M keep) :
    (∃ i : Fin n, spread keep (nullVec M keep) i ≠ 0) ∧ ∀ i : Fin n, (i : ℕ) ∈ keep → (M *ᵥ fun j : Fin n => spread keep (nullVec M keep) j) i = 0 := by
  obtain ⟨hne, h0, h1⟩ := h.choose_spec
  have e : (fun j : Fin n => spread keep (nullVec M keep) j) = h.choose := by
    funext j
    rw [nullVec, dif_pos h, spread_map]
    by_cases hj : (j : ℕ) ∈ keep
    · simp [hj]
    · rw [if_neg hj, h0 j hj]
  refine ⟨?_, fun i hi => by rw [e]; exact h1 i hi⟩
  obtain ⟨i, hi⟩ := Function.ne_iff.1 hne
  exact ⟨i, by rw [congrFun e i]; exact hi⟩

open Classical in
/-- Exact decompositions exist for every positive semi-definite matrix. -/
theorem exact_exists {M : Matrix (Fin n) (Fin n) ℝ} (hM : M.PosSemidef) : ∃ e : Ext n, Exact e M ∧ ∀ k, e.vec M k ≠ none := by
  obtain ⟨out, hnd, hlt, hr, hen⟩ : ∃ out : List ℕ, out.Nodup ∧ (∀ i ∈ out, i < n) ∧ Redundant M out ∧ Enough M out := by
    suffices ∀ m (d : List ℕ), n - d.length = m → d.Nodup → (∀ i ∈ d, i < n) → Redundant M d →
        ∃ out : List ℕ, out.Nodup ∧ (∀ i ∈ out, i < n) ∧ Redundant M out ∧ Enough M out from
      this n [] (by simp) List.nodup_nil (by simp) fun b => ⟨b, by simp, rfl⟩
    intro m
    induction m using Nat.strong_induction_on with
    | _ m ih =>
      intro d hm hd hdn hr
      by_cases hs : Singular M (complement n d)
      · obtain ⟨hw, h0⟩ := nullVec_spec hs
        have hc := foster_step n d (nullVec M (complement n d)) (hw.elim fun i hi => ⟨i, hi⟩)
        rw [complement_mem] at hc
        have hd' : (d ++ [argmaxAbs n (spread (complement n d) (nullVec M (complement n d)))]).Nodup := by
          rw [List.nodup_append]
          refine ⟨hd, List.nodup_singleton _, fun x hx y hy => ?_⟩
          rw [List.mem_singleton] at hy
          rintro rfl
          exact hc.2 (hy ▸ hx)
        have hdn' : ∀ i ∈ d ++ [argmaxAbs n (spread (complement n d) (nullVec M (complement n d)))], i < n := fun i hi => by
          rcases List.mem_append.1 hi with h | h
          · exact hdn i h
          · rw [List.mem_singleton.1 h]; exact hc.1
        have hl : (d ++ [argmaxAbs n (spread (complement n d) (nullVec M (complement n d)))]).length ≤ (List.range n).length :=
          (List.Nodup.subperm hd' fun i hi => List.mem_range.2 (hdn' i hi)).length_le
        rw [List.length_range, List.length_append, List.length_singleton] at hl
        exact ih (n - (d ++ [argmaxAbs n (spread (complement n d) (nullVec M (complement n d)))]).length)
          (by rw [List.length_append, List.length_singleton]; omega) _ rfl hd' hdn' (redundant_step hM hr hw h0)
      · exact ⟨d, hd, hdn, hr, (singular_iff_not_enough hM d).1 hs⟩
  refine ⟨⟨fun _ => (complement n out ++ out, (complement n out).length), fun M keep => some (nullVec M keep), fun M keep => decide (¬ Singular M keep)⟩,
    ⟨?_, ?_, ?_, ?_, fun keep => by simp, fun keep wk hs hv => ?_⟩, fun k => by simp⟩
  · refine (List.perm_ext_iff_of_nodup ?_ List.nodup_range).2 fun i => ?_
    · rw [List.nodup_append]
      refine ⟨(complement_sorted n out).imp fun h => h.ne, hnd, fun x hx y hy => ?_⟩
      rintro rfl
      exact ((complement_mem n out x).1 hx).2 hy
    · rw [List.mem_append, complement_mem, List.mem_range]
      constructor
      · rintro (h | h)
        · exact h.1
        · exact hlt i h
      · intro h
        by_cases hi : i ∈ out
        · exact Or.inr hi
        · exact Or.inl ⟨h, hi⟩
  · dsimp only
    exact (List.length_filter_le _ _).trans_eq List.length_range
  · dsimp only
    rw [List.drop_left]
    exact hen
  · dsimp only
    rw [List.drop_left]
    intro c _
    obtain ⟨v, h1, h2⟩ := hr (Pi.single c 1)
    refine ⟨v, h1, fun r => ?_⟩
    rw [h2, mulVec_single_one]
    rfl
  · obtain rfl := Option.some.inj hv
    exact nullVec_spec hs

/-- An intercept and one column for each of two levels, one observation of each. -/
def dummies : Fin 2 → Matrix (Fin 1) (Fin 3) ℝ := ![!![1, 1, 0], !![1, 0, 1]]

/-- Its Hessian for a Gaussian log-likelihood. -/
def dumH : Matrix (Fin 3) (Fin 3) ℝ := !![-2, -1, -1; -1, -1, 0; -1, 0, -1]

theorem dum_curved : Curved dumH dummies fun _ => 1 := by
  refine ⟨?_, fun _ => PosDef.one, fun h => ?_⟩
  · ext i j
    fin_cases i <;> fin_cases j <;> simp [dumH, dummies, Fin.sum_univ_two, mul_apply] <;> norm_num
  · simpa [dumH] using congrFun (congrFun h 0) 0

/-- One coefficient is dropped, no matter by which method. -/
example : ∃ e : Ext 3, Exact e (pre (1 / 100) (scaled dumH (sNorm []))) ∧ (∀ k, e.vec (pre (1 / 100) (scaled dumH (sNorm []))) k ≠ none) ∧
    ∃ keep drop, identify e (1 / 100) true 0 dumH (sNorm []) = some (keep, drop) ∧ drop ≠ [] := by
  obtain ⟨e, he, hv⟩ := exact_exists (examined_psd (eps := 1 / 100) dum_curved (Ps := []) (by simp))
  obtain ⟨keep, drop, hi⟩ : ∃ keep drop, identify e (1 / 100) true 0 dumH (sNorm []) = some (keep, drop) := ⟨_, _, rfl⟩
  refine ⟨e, he, hv, keep, drop, hi, ?_⟩
  rintro rfl
  have hk := (identify_sound he (examined_psd dum_curved (by simp)) hi).1
  have hall : ∀ i : Fin 3, (i : ℕ) ∈ keep := fun i => (hk i).2 ⟨i.2, by simp⟩
  have := enough_dropped (by norm_num) dum_curved (by simp) (by simp) he hi hv (b := ![1, -1, -1]) (b' := 0) (fun i h => absurd (hall i) h)
    (fun i h => absurd (hall i) h) (fun o => by
      funext k
      fin_cases o <;> fin_cases k <;> simp [dummies]) (by simp)
  simpa using congrFun this 0

example {e : Ext 3} (he : Exact e (pre (1 / 100) (scaled dumH (sNorm [])))) {byqr : Bool} {fuel : ℕ} {keep drop : List ℕ}
    (hi : identify e (1 / 100) byqr fuel dumH (sNorm []) = some (keep, drop)) (b : Fin 3 → ℝ) :
    ∃ b' : Fin 3 → ℝ, (∀ i : Fin 3, (i : ℕ) ∉ keep → b' i = 0) ∧ (∀ o, dummies o *ᵥ b' = dummies o *ᵥ b) ∧ ∀ P ∈ ([] : List (Matrix (Fin 3) (Fin 3) ℝ)), P *ᵥ b' = P *ᵥ b :=
  nothing_lost_partial (by norm_num) dum_curved (by simp) (by simp) he hi b

/-- A penalty on the differences between the levels. -/
def dumP : Matrix (Fin 3) (Fin 3) ℝ := diagonal ![0, 1, 1]

theorem dumP_psd : dumP.PosSemidef := PosSemidef.diagonal fun i => by fin_cases i <;> simp

theorem dumP_ne : dumP ≠ 0 := fun h => by simpa [dumP] using congrFun (congrFun h 1) 1

/-- Observations 1 and 3 with a penalty. -/
example {e : Ext 3} (he : Exact e (pre (1 / 100) (scaled dumH (sNorm [dumP])))) {byqr : Bool} {fuel : ℕ} {keep drop : List ℕ}
    (hi : identify e (1 / 100) byqr fuel dumH (sNorm [dumP]) = some (keep, drop)) {b : Fin 3 → ℝ}
    (hb : ∀ b' : Fin 3 → ℝ, (∀ i : Fin 3, (i : ℕ) ∉ keep → b' i = 0) →
      -((1 - (dummies 0 *ᵥ b') 0) ^ 2 + (3 - (dummies 1 *ᵥ b') 0) ^ 2) / 2 - 1 / 2 * (b' ⬝ᵥ (weighted (fun _ => 5) [dumP] 0 *ᵥ b')) ≤
      -((1 - (dummies 0 *ᵥ b) 0) ^ 2 + (3 - (dummies 1 *ᵥ b) 0) ^ 2) / 2 - 1 / 2 * (b ⬝ᵥ (weighted (fun _ => 5) [dumP] 0 *ᵥ b))) (b' : Fin 3 → ℝ) :
    -((1 - (dummies 0 *ᵥ b') 0) ^ 2 + (3 - (dummies 1 *ᵥ b') 0) ^ 2) / 2 - 1 / 2 * (b' ⬝ᵥ (weighted (fun _ => 5) [dumP] 0 *ᵥ b')) ≤
      -((1 - (dummies 0 *ᵥ b) 0) ^ 2 + (3 - (dummies 1 *ᵥ b) 0) ^ 2) / 2 - 1 / 2 * (b ⬝ᵥ (weighted (fun _ => 5) [dumP] 0 *ᵥ b)) :=
  same_fit_partial (by norm_num) dum_curved (by simpa using dumP_psd) (by simpa using dumP_ne) he hi
    (fun eta => -((1 - eta 0 0) ^ 2 + (3 - eta 1 0) ^ 2) / 2) (fun _ => 5) hb b'

/-- The iterative search ends. -/
example : ∃ e : Ext 3, Exact e (pre (1 / 100) (scaled dumH (sNorm []))) ∧ ∃ r, identify e (1 / 100) false 4 dumH (sNorm []) = some r := by
  classical
  obtain ⟨e0, he, hv⟩ := exact_exists (examined_psd (eps := 1 / 100) dum_curved (Ps := []) (by simp))
  set M := pre (1 / 100) (scaled dumH (sNorm []))
  refine ⟨⟨e0.qr, fun M keep => if Singular M keep then e0.vec M keep else none, e0.ok⟩,
    ⟨he.perm, he.rank_le, he.indep, he.span, he.ok, fun keep wk hs h => he.vec keep wk hs (by simpa [hs] using h)⟩, ?_⟩
  unfold identify
  dsimp only
  rw [if_neg (by decide)]
  split_ifs
  · exact ⟨_, rfl⟩
  · obtain ⟨out, h, -⟩ := foster_correct 3 (fun keep => if Singular M keep then e0.vec M keep else none) (e0.ok M) (fun keep wk h => by
      by_cases hs : Singular M keep
      · exact (he.vec keep wk hs (by simpa [hs] using h)).1.elim fun i hi => ⟨i, hi⟩
      · simp [hs] at h) [] List.nodup_nil (by simp) 4 (by simp)
    exact ⟨_, by rw [h]; rfl⟩

/-- The hypotheses of `indefinite_wrong` can be met. -/
example : ∃ (e : Ext 3) (keep drop : List ℕ), Exact e (pre 1 (scaled hessW (sNorm [1]))) ∧ (∀ k, e.vec (pre 1 (scaled hessW (sNorm [1]))) k ≠ none) ∧
    identify e 1 true 0 hessW (sNorm [1]) = some (keep, drop) ∧ ∀ i, i ∈ keep ↔ i = 1 ∨ i = 2 := by
  obtain ⟨e, he, hv⟩ := exact_exists (M := pre 1 (scaled hessW (sNorm [1]))) (by
    rw [examinedW one_pos le_rfl]
    exact PosSemidef.diagonal fun i => by fin_cases i <;> simp)
  obtain ⟨keep, drop, hi⟩ : ∃ keep drop, identify e 1 true 0 hessW (sNorm [1]) = some (keep, drop) := ⟨_, _, rfl⟩
  exact ⟨e, keep, drop, he, hv, hi, (indefinite_wrong one_pos le_rfl he hv hi).1⟩

end Verif.Red
