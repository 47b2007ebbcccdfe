import Verif.SecantLemmas
import Mathlib.Analysis.SpecialFunctions.Pow.Real
import Mathlib.Analysis.SpecialFunctions.Log.Basic

/-!
# Sampled update vectors: lemmas (property C110)
-/

namespace Verif.Secant

open Matrix Verif.Compact

variable {n : ℕ}

/-- A pair tried while sampling: a step `s` that ends at the estimate and minus the change of the gradient along it. -/
noncomputable def tried (g : Vec n → Vec n) (b s : Vec n) : Pair n := ⟨g (b - s) - g b, s, 1 / ((g (b - s) - g b) ⬝ᵥ s)⟩

/-- `ks` are the numbers below `m` of the pairs that were stored. -/
structure Greedy (c : ℕ → Pair n) (m : ℕ) (ks : List ℕ) : Prop where
  sub : ks.Sublist (List.range m)
  iff : ∀ k < m, k ∈ ks ↔ (c k).y ⬝ᵥ (c k).s ≠ 0 ∧ ¬ testFails ((ks.filter (· < k)).map c) (c k)

theorem Greedy.lt {c : ℕ → Pair n} {m : ℕ} {ks : List ℕ} (h : Greedy c m ks) {k : ℕ} (hk : k ∈ ks) : k < m :=
  List.mem_range.1 (h.sub.subset hk)

theorem Greedy.length_le {c : ℕ → Pair n} {m : ℕ} {ks : List ℕ} (h : Greedy c m ks) : ks.length ≤ m := by
  have := h.sub.length_le
  rwa [List.length_range] at this

theorem filter_lt_all {ks : List ℕ} {m : ℕ} (h : ∀ k ∈ ks, k < m) : ks.filter (· < m) = ks := by
  rw [List.filter_eq_self]
  intro k hk
  simpa using h k hk

theorem Greedy.zero (c : ℕ → Pair n) : Greedy c 0 [] := ⟨by simp, fun k hk => absurd hk (Nat.not_lt_zero k)⟩

theorem Greedy.skip {c : ℕ → Pair n} {m : ℕ} {ks : List ℕ} (h : Greedy c m ks)
    (hr : (c m).y ⬝ᵥ (c m).s = 0 ∨ testFails (ks.map c) (c m)) : Greedy c (m + 1) ks := by
  refine ⟨?_, ?_⟩
  · rw [List.range_succ]
    exact h.sub.trans (List.sublist_append_left _ _)
  · intro k hk
    rcases Nat.lt_succ_iff_lt_or_eq.1 hk with hk | rfl
    · exact h.iff k hk
    · rw [filter_lt_all fun _ => h.lt]
      constructor
      · intro hm
        exact absurd (h.lt hm) (lt_irrefl _)
      · rintro ⟨h1, h2⟩
        rcases hr with h3 | h3
        · exact absurd h3 h1
        · exact absurd h3 h2

theorem Greedy.take {c : ℕ → Pair n} {m : ℕ} {ks : List ℕ} (h : Greedy c m ks)
    (h1 : (c m).y ⬝ᵥ (c m).s ≠ 0) (h2 : ¬ testFails (ks.map c) (c m)) : Greedy c (m + 1) (ks ++ [m]) := by
  refine ⟨?_, ?_⟩
  · rw [List.range_succ]
    exact h.sub.append (List.Sublist.refl _)
  · intro k hk
    rcases Nat.lt_succ_iff_lt_or_eq.1 hk with hk | rfl
    · have e : (ks ++ [m]).filter (· < k) = ks.filter (· < k) := by
        rw [List.filter_append]
        simp [not_lt.2 hk.le]
      rw [e, ← h.iff k hk]
      simp only [List.mem_append, List.mem_singleton]
      constructor
      · rintro (h3 | rfl)
        · exact h3
        · exact absurd hk (lt_irrefl _)
      · exact Or.inl
    · have e : (ks ++ [k]).filter (· < k) = ks := by
        rw [List.filter_append, filter_lt_all fun _ => h.lt]
        simp
      rw [e]
      exact ⟨fun _ => ⟨h1, h2⟩, fun _ => by simp⟩

/-- Every stored pair was defined together with those stored before it. -/
theorem Greedy.prefix {c : ℕ → Pair n} {m : ℕ} {ks : List ℕ} (h : Greedy c m ks) {as : List ℕ} {k : ℕ} {bs : List ℕ}
    (he : ks = as ++ k :: bs) : (c k).y ⬝ᵥ (c k).s ≠ 0 ∧ ¬ testFails (as.map c) (c k) := by
  have hk : k ∈ ks := by rw [he]; simp
  have h1 := (h.iff k (h.lt hk)).1 hk
  have hp : ks.Pairwise (· < ·) := (List.pairwise_lt_range (n := m)).sublist h.sub
  rw [he, List.pairwise_append] at hp
  have e : ks.filter (· < k) = as := by
    rw [he, List.filter_append, filter_lt_all fun j hj => hp.2.2 j hj k (by simp)]
    have : (k :: bs).filter (· < k) = [] := by
      rw [List.filter_eq_nil_iff]
      intro j hj
      rcases List.mem_cons.1 hj with rfl | hj
      · simp
      · have := (List.pairwise_cons.1 hp.2.1).1 j hj
        simp only [decide_eq_true_eq, not_lt]
        exact this.le
    rw [this, List.append_nil]
  rwa [e] at h1

/-- The `k`-th pair tried. -/
noncomputable def Samp.try (chol : Matrix (Fin n) (Fin n) ℝ → Option (Matrix (Fin n) (Fin n) ℝ)) (p : Samp n) (k : ℕ) : Pair n :=
  tried p.grad p.coef (p.radius chol • p.step0 chol (p.used + k))

theorem Samp.cand_try (chol : Matrix (Fin n) (Fin n) ℝ → Option (Matrix (Fin n) (Fin n) ℝ)) (p : Samp n) (k : ℕ) :
    cand (p.grad (p.coef - p.radius chol • p.step0 chol (p.used + k))) (p.grad p.coef) (p.step0 chol (p.used + k)) (p.radius chol)
      = p.try chol k := by
  rw [cand_eq]
  rfl

theorem Samp.draw_inv (chol : Matrix (Fin n) (Fin n) ℝ → Option (Matrix (Fin n) (Fin n) ℝ)) (p : Samp n) {m : ℕ} (hm : m ≤ p.limit) :
    ∃ ks, Greedy (p.try chol) m ks ∧ (List.range m).foldl (p.drawStep chol) ([], 0) = (ks.map (p.try chol), ks.length) := by
  induction m with
  | zero => exact ⟨[], Greedy.zero _, rfl⟩
  | succ m ih =>
    obtain ⟨ks, hg, he⟩ := ih (by omega)
    rw [List.range_succ, List.foldl_append, he, List.foldl_cons, List.foldl_nil]
    unfold Samp.drawStep
    simp only
    rcases updateYs_cases p.limit (p.grad (p.coef - p.radius chol • p.step0 chol (p.used + m))) (p.grad p.coef)
      (p.step0 chol (p.used + m)) (p.radius chol) (ks.map (p.try chol)) with ⟨h1, h2⟩ | ⟨h1, h2, h3⟩
    · rw [h1]
      rw [p.cand_try] at h2
      exact ⟨ks, hg.skip h2, by simp⟩
    · rw [h1]
      rw [p.cand_try] at h2 h3 ⊢
      refine ⟨ks ++ [m], hg.take h2 h3, ?_⟩
      have hl := hg.length_le
      rw [if_neg (by simp; omega)]
      simp

theorem pearl_inv (limit : ℕ) (hv : Vec n → Vec n) (z : ℕ → Vec n) {m : ℕ} (hm : m ≤ limit) :
    ∃ ks, Greedy (fun k => (⟨hv (z k), z k, 1 / (hv (z k) ⬝ᵥ z k)⟩ : Pair n)) m ks ∧
      ((List.range m).map z).foldl (pearlStep limit hv) ([], 0)
        = (ks.map (fun k => (⟨hv (z k), z k, 1 / (hv (z k) ⬝ᵥ z k)⟩ : Pair n)), ks.length) := by
  induction m with
  | zero => exact ⟨[], Greedy.zero _, rfl⟩
  | succ m ih =>
    obtain ⟨ks, hg, he⟩ := ih (by omega)
    rw [List.range_succ, List.map_append, List.foldl_append, he, List.map_cons, List.map_nil, List.foldl_cons, List.foldl_nil]
    unfold pearlStep
    simp only
    by_cases h : hv (z m) ⬝ᵥ z m = 0 ∨ testFails (ks.map (fun k => (⟨hv (z k), z k, 1 / (hv (z k) ⬝ᵥ z k)⟩ : Pair n)))
        ⟨hv (z m), z m, 1 / (hv (z m) ⬝ᵥ z m)⟩
    · rw [if_pos h]
      exact ⟨ks, hg.skip h, rfl⟩
    · rw [if_neg h]
      rw [not_or] at h
      refine ⟨ks ++ [m], hg.take h.1 h.2, ?_⟩
      have hl := hg.length_le
      rw [if_neg (by simp; omega)]
      simp

/-! ## The radius -/

theorem minOne_mem (x : Fl) : 0 ≤ minOne x ∧ minOne x ≤ 1 := by
  cases x with
  | fin r =>
    unfold minOne
    rw [Fl.exp_fin]
    simp only
    split
    · rename_i h
      exact ⟨(Real.exp_pos r).le, h.le⟩
    · exact ⟨zero_le_one, le_rfl⟩
  | pinf => exact ⟨zero_le_one, le_rfl⟩
  | ninf =>
    unfold minOne Fl.exp
    simp
  | nan => exact ⟨zero_le_one, le_rfl⟩

theorem minOne_fin (r : ℝ) : minOne (Fl.fin r) = min 1 (Real.exp r) := by
  unfold minOne
  rw [Fl.exp_fin]
  simp only
  split
  · rename_i h
    rw [min_eq_right h.le]
  · rename_i h
    rw [min_eq_left (not_lt.1 h)]

theorem Samp.rad_Hbar (chol : Matrix (Fin n) (Fin n) ℝ → Option (Matrix (Fin n) (Fin n) ℝ)) (p : Samp n) (m : ℕ) :
    (p.rad chol m).Hbar = ∑ k ∈ Finset.range m, (p.opts.delta - p.acc ((p.rad chol k).r • p.step0 chol k)) := by
  induction m with
  | zero => rfl
  | succ m ih =>
    rw [Finset.sum_range_succ, ← ih]
    rfl

theorem Samp.rad_logr (chol : Matrix (Fin n) (Fin n) ℝ → Option (Matrix (Fin n) (Fin n) ℝ)) (p : Samp n) (m : ℕ) :
    Real.log (p.rad chol (m + 1)).r
      = p.mu - (Real.sqrt ((m + 1 : ℕ) : ℝ) / 0.05) * (1 / (((m + 1 : ℕ) : ℝ) + 10)) * (p.rad chol (m + 1)).Hbar := by
  change Real.log (Real.exp _) = _
  rw [Real.log_exp]
  rfl

/-- Weight of the newest radius. -/
theorem eta_mem (m : ℕ) : 0 < (((m + 1 : ℕ) : ℝ)) ^ (-(0.75 : ℝ)) ∧ (((m + 1 : ℕ) : ℝ)) ^ (-(0.75 : ℝ)) ≤ 1 := by
  have h1 : (1 : ℝ) ≤ ((m + 1 : ℕ) : ℝ) := by
    push_cast
    have : (0 : ℝ) ≤ m := Nat.cast_nonneg m
    linarith
  exact ⟨Real.rpow_pos_of_pos (by linarith) _, Real.rpow_le_one_of_one_le_of_nonpos h1 (by norm_num)⟩

theorem Samp.rad_log_rbar (chol : Matrix (Fin n) (Fin n) ℝ → Option (Matrix (Fin n) (Fin n) ℝ)) (p : Samp n) (m : ℕ) :
    Real.log (p.rad chol (m + 1)).rbar = (((m + 1 : ℕ) : ℝ)) ^ (-(0.75 : ℝ)) * Real.log (p.rad chol (m + 1)).r
      + (1 - (((m + 1 : ℕ) : ℝ)) ^ (-(0.75 : ℝ))) * Real.log (p.rad chol m).rbar := by
  rw [p.rad_logr]
  change Real.log (Real.exp _) = _
  rw [Real.log_exp]
  rfl

theorem Samp.rbar_ge (chol : Matrix (Fin n) (Fin n) ℝ → Option (Matrix (Fin n) (Fin n) ℝ)) (p : Samp n) {lo : ℝ} (m : ℕ)
    (h : ∀ k < m + 1, lo ≤ Real.log (p.rad chol (k + 1)).r) : lo ≤ Real.log (p.rad chol (m + 1)).rbar := by
  induction m with
  | zero =>
    rw [p.rad_log_rbar]
    simp only [Nat.cast_one, zero_add, Real.one_rpow, one_mul, sub_self, zero_mul, add_zero]
    exact h 0 (by omega)
  | succ m ih =>
    rw [p.rad_log_rbar]
    have h1 := ih fun k hk => h k (by omega)
    have h2 := h (m + 1) (by omega)
    obtain ⟨e1, e2⟩ := eta_mem (m + 1)
    set e := (((m + 1 + 1 : ℕ) : ℝ)) ^ (-(0.75 : ℝ))
    nlinarith [mul_le_mul_of_nonneg_left h2 e1.le, mul_le_mul_of_nonneg_left h1 (sub_nonneg.2 e2)]

theorem Samp.rbar_le (chol : Matrix (Fin n) (Fin n) ℝ → Option (Matrix (Fin n) (Fin n) ℝ)) (p : Samp n) {hi : ℝ} (m : ℕ)
    (h : ∀ k < m + 1, Real.log (p.rad chol (k + 1)).r ≤ hi) : Real.log (p.rad chol (m + 1)).rbar ≤ hi := by
  induction m with
  | zero =>
    rw [p.rad_log_rbar]
    simp only [Nat.cast_one, zero_add, Real.one_rpow, one_mul, sub_self, zero_mul, add_zero]
    exact h 0 (by omega)
  | succ m ih =>
    rw [p.rad_log_rbar]
    have h1 := ih fun k hk => h k (by omega)
    have h2 := h (m + 1) (by omega)
    obtain ⟨e1, e2⟩ := eta_mem (m + 1)
    set e := (((m + 1 + 1 : ℕ) : ℝ)) ^ (-(0.75 : ℝ))
    nlinarith [mul_le_mul_of_nonneg_left h2 e1.le, mul_le_mul_of_nonneg_left h1 (sub_nonneg.2 e2)]

theorem Samp.rbar_pos (chol : Matrix (Fin n) (Fin n) ℝ → Option (Matrix (Fin n) (Fin n) ℝ)) (p : Samp n) (m : ℕ) :
    0 < (p.rad chol m).rbar := by
  cases m with
  | zero => exact zero_lt_one
  | succ m => exact Real.exp_pos _

theorem Samp.r_pos (chol : Matrix (Fin n) (Fin n) ℝ → Option (Matrix (Fin n) (Fin n) ℝ)) (p : Samp n) (m : ℕ) :
    0 < (p.rad chol (m + 1)).r := Real.exp_pos _

/-- Factor of the summed differences. -/
theorem gain_pos (m : ℕ) : 0 < (Real.sqrt ((m + 1 : ℕ) : ℝ) / 0.05) * (1 / (((m + 1 : ℕ) : ℝ) + 10)) := by
  have h1 : (0 : ℝ) < ((m + 1 : ℕ) : ℝ) := by exact_mod_cast Nat.succ_pos m
  have h2 := Real.sqrt_pos.2 h1
  positivity

/-! ## Attempts -/

theorem attemptLoop_stop (sample : ℕ → List (Pair n) × ℕ) (seed left : ℕ) {w : List (Pair n) × ℕ} (h : w.2 ≠ 0) :
    attemptLoop sample seed left w = w := by
  cases left with
  | zero => rfl
  | succ left =>
    rw [attemptLoop, if_neg h]

theorem attemptLoop_first (sample : ℕ → List (Pair n) × ℕ) (k : ℕ) : ∀ (seed left : ℕ) (w : List (Pair n) × ℕ), w.2 = 0 → k < left →
    (∀ j < k, (sample (seed + j)).2 = 0) → (sample (seed + k)).2 ≠ 0 → attemptLoop sample seed left w = sample (seed + k) := by
  induction k with
  | zero =>
    intro seed left w hw hk _ h
    obtain ⟨left, rfl⟩ : ∃ l, left = l + 1 := ⟨left - 1, by omega⟩
    rw [attemptLoop, if_pos hw]
    exact attemptLoop_stop sample _ _ h
  | succ k ih =>
    intro seed left w hw hk h0 h
    obtain ⟨left, rfl⟩ : ∃ l, left = l + 1 := ⟨left - 1, by omega⟩
    rw [attemptLoop, if_pos hw, ih (seed + 1) left (sample seed) (h0 0 (by omega)) (by omega)]
    · congr 1
      omega
    · intro j hj
      have := h0 (j + 1) (by omega)
      rwa [show seed + (j + 1) = seed + 1 + j by omega] at this
    · rwa [show seed + (k + 1) = seed + 1 + k by omega] at h

theorem attemptLoop_none (sample : ℕ → List (Pair n) × ℕ) (left : ℕ) : ∀ (seed : ℕ) (w : List (Pair n) × ℕ), w.2 = 0 →
    (∀ j < left + 1, (sample (seed + j)).2 = 0) → attemptLoop sample seed (left + 1) w = sample (seed + left) := by
  induction left with
  | zero =>
    intro seed w hw _
    rw [attemptLoop, if_pos hw]
    rfl
  | succ left ih =>
    intro seed w hw h0
    rw [attemptLoop, if_pos hw, ih (seed + 1) (sample seed) (h0 0 (by omega))]
    · congr 1
      omega
    · intro j hj
      have := h0 (j + 1) (by omega)
      rwa [show seed + (j + 1) = seed + 1 + j by omega] at this

end Verif.Secant
