import Verif.ReparaModel
import Mathlib.LinearAlgebra.Matrix.PosDef
import Mathlib.Algebra.Order.Star.Real
import Mathlib.Tactic.Ring
import Mathlib.Tactic.Linarith
import Mathlib.Algebra.BigOperators.Group.List.Basic

/-!
# Re-parameterisation of one group of penalties (property C41)
-/

namespace Verif.Repara

open Matrix

variable {n J : ℕ}

/-- The decomposition of the remaining block is right and its numerical rank exact. -/
structure EigOK (eps : ℝ) (K : ℕ) (M : Matrix (Fin n) (Fin n) ℝ) (e : Eig n) : Prop where
  orth : e.Uᵀ * e.U = 1
  row : ∀ i j : Fin n, i.1 < K → e.U i j = if i = j then 1 else 0
  col : ∀ i j : Fin n, j.1 < K → e.U i j = if i = j then 1 else 0
  diag : ∀ i j : Fin n, K ≤ i.1 → K ≤ j.1 → (e.Uᵀ * M * e.U) i j = if i = j then e.D i else 0
  anti : ∀ i j : Fin n, K ≤ i.1 → i ≤ j → e.D j ≤ e.D i
  exact : ∀ i : Fin n, K ≤ i.1 → big eps K e.D i ∨ e.D i = 0

/-- Every decomposition met by the loop is right. -/
def GoodRun (eig : ℕ → Matrix (Fin n) (Fin n) ℝ → Eig n) (eps : ℝ) (lam : Fin J → ℝ)
    (pick : St n J → Fin J) : ℕ → St n J → Prop
  | 0, _ => True
  | fuel + 1, st =>
    pick st ∈ st.rem ∧ EigOK eps st.K (Sk lam st (pick st)) (eig st.K (Sk lam st (pick st))) ∧
    (rank eps st.K (eig st.K (Sk lam st (pick st))).D ≠ n - st.K →
      GoodRun eig eps lam pick fuel (transform lam st (pick st) (eig st.K (Sk lam st (pick st)))
        (rank eps st.K (eig st.K (Sk lam st (pick st))).D)))

theorem big_mono (eps : ℝ) (K : ℕ) (D : Fin n → ℝ) (i j : Fin n) (h : D i ≤ D j) (hb : big eps K D i) :
    big eps K D j := fun k hk => lt_of_lt_of_le (hb k hk) h

/-- The kept eigenvalues are the first `r` of the block. -/
theorem big_iff (eps : ℝ) (K : ℕ) (D : Fin n → ℝ)
    (anti : ∀ i j : Fin n, K ≤ i.1 → i ≤ j → D j ≤ D i) (i : Fin n) (hi : K ≤ i.1) :
    big eps K D i ↔ i.1 < K + rank eps K D := by
  classical
  unfold rank
  constructor
  · intro hb
    have hsub : (Finset.univ.filter fun k : Fin n => K ≤ k.1 ∧ k.1 ≤ i.1) ⊆
        Finset.univ.filter fun k : Fin n => K ≤ k.1 ∧ big eps K D k := by
      intro k hk
      rw [Finset.mem_filter] at hk ⊢
      exact ⟨Finset.mem_univ _, hk.2.1, big_mono eps K D i k (anti k i hk.2.1 hk.2.2) hb⟩
    have hc := Finset.card_le_card hsub
    have hcard : (Finset.univ.filter fun k : Fin n => K ≤ k.1 ∧ k.1 ≤ i.1).card = i.1 + 1 - K := by
      rw [← Nat.card_Icc]
      refine Finset.card_bij (fun k _ => k.1) ?_ ?_ ?_
      · intro k hk
        rw [Finset.mem_filter] at hk
        exact Finset.mem_Icc.2 hk.2
      · intro a _ b _ h; exact Fin.ext h
      · intro b hb'
        rw [Finset.mem_Icc] at hb'
        exact ⟨⟨b, by omega⟩, Finset.mem_filter.2 ⟨Finset.mem_univ _, hb'⟩, rfl⟩
    rw [hcard] at hc
    omega
  · intro hlt
    by_contra hb
    have hsub : (Finset.univ.filter fun k : Fin n => K ≤ k.1 ∧ big eps K D k) ⊆
        Finset.univ.filter fun k : Fin n => K ≤ k.1 ∧ k.1 < i.1 := by
      intro k hk
      rw [Finset.mem_filter] at hk ⊢
      refine ⟨Finset.mem_univ _, hk.2.1, ?_⟩
      by_contra hn
      exact hb (big_mono eps K D k i (anti i k hi (by show i.1 ≤ k.1; omega)) hk.2.2)
    have hc := Finset.card_le_card hsub
    have hcard : (Finset.univ.filter fun k : Fin n => K ≤ k.1 ∧ k.1 < i.1).card = i.1 - K := by
      rw [← Nat.card_Ico]
      refine Finset.card_bij (fun k _ => k.1) ?_ ?_ ?_
      · intro k hk
        rw [Finset.mem_filter] at hk
        exact Finset.mem_Ico.2 hk.2
      · intro a _ b _ h; exact Fin.ext h
      · intro b hb'
        rw [Finset.mem_Ico] at hb'
        exact ⟨⟨b, by omega⟩, Finset.mem_filter.2 ⟨Finset.mem_univ _, hb'⟩, rfl⟩
    rw [hcard] at hc
    omega

/-- Total penalty. -/
def tot (lam : Fin J → ℝ) (SJ : Fin J → Matrix (Fin n) (Fin n) ℝ) : Matrix (Fin n) (Fin n) ℝ :=
  ∑ j, lam j • SJ j

/-- Invariant of the loop. -/
structure Inv (lam : Fin J → ℝ) (SJ : Fin J → Matrix (Fin n) (Fin n) ℝ) (st : St n J) : Prop where
  orth : st.Qᵀ * st.Q = 1
  nodup : st.rem.Nodup
  rep : ∀ j, st.rep j = st.Qᵀ * SJ j * st.Q
  bar : ∀ j ∈ st.rem, st.bar j = mask st.K (st.rep j)
  out : ∀ j, j ∉ st.rem → ∀ i k : Fin n, st.K ≤ i.1 ∨ st.K ≤ k.1 → st.rep j i k = 0
  some : ∀ s, st.S = some s → s = st.Qᵀ * tot lam SJ * st.Q
  none : st.S = none → st.Q = 1 ∧ st.K = 0 ∧ st.bar = SJ

theorem tot_rep {lam : Fin J → ℝ} {SJ : Fin J → Matrix (Fin n) (Fin n) ℝ} {st : St n J} (h : Inv lam SJ st) :
    st.Qᵀ * tot lam SJ * st.Q = ∑ j, lam j • st.rep j := by
  unfold tot
  rw [Matrix.mul_sum, Matrix.sum_mul]
  refine Finset.sum_congr rfl fun j _ => ?_
  rw [h.rep, Matrix.mul_smul, Matrix.smul_mul]

/-- The remaining block of the transformed total is the sum of the remaining penalties. -/
theorem mask_tot {lam : Fin J → ℝ} {SJ : Fin J → Matrix (Fin n) (Fin n) ℝ} {st : St n J}
    (h : Inv lam SJ st) :
    mask st.K (st.Qᵀ * tot lam SJ * st.Q) = ∑ j ∈ st.rem.toFinset, lam j • st.bar j := by
  rw [tot_rep h]
  ext i k
  unfold mask
  rw [Matrix.of_apply, Matrix.sum_apply, Matrix.sum_apply]
  by_cases hc : st.K ≤ i.1 ∧ st.K ≤ k.1
  · rw [if_pos hc]
    symm
    have : ∀ j ∈ st.rem.toFinset, (lam j • st.bar j) i k = (lam j • st.rep j) i k := by
      intro j hj
      rw [h.bar j (List.mem_toFinset.1 hj)]
      unfold mask
      rw [Matrix.smul_apply, Matrix.smul_apply, Matrix.of_apply, if_pos hc]
    rw [Finset.sum_congr rfl this]
    refine Finset.sum_subset (Finset.subset_univ _) fun j _ hj => ?_
    rw [Matrix.smul_apply, h.out j (fun hm => hj (List.mem_toFinset.2 hm)) i k (Or.inl hc.1), smul_zero]
  · rw [if_neg hc]
    symm
    refine Finset.sum_eq_zero fun j hj => ?_
    rw [h.bar j (List.mem_toFinset.1 hj)]
    unfold mask
    rw [Matrix.smul_apply, Matrix.of_apply, if_neg hc, smul_zero]

theorem Sk_add_Sjk (lam : Fin J → ℝ) (st : St n J) (am : Fin J) (hm : am ∈ st.rem) (hn : st.rem.Nodup) :
    ∑ j ∈ st.rem.toFinset, lam j • st.bar j = Sk lam st am + Sjk lam st am := by
  unfold Sk Sjk
  rw [← List.sum_toFinset _ (hn.filter _), ← Finset.add_sum_erase _ _ (List.mem_toFinset.2 hm)]
  congr 2
  ext j
  rw [Finset.mem_erase, List.mem_toFinset, List.mem_toFinset, List.mem_filter]
  simp only [ne_eq, decide_not, Bool.not_eq_eq_eq_not, Bool.not_true, decide_eq_false_iff_not]
  tauto

/-- Conjugating by `U` only sees the remaining block in its rows and columns. -/
theorem conj_block {eps : ℝ} {K : ℕ} {M : Matrix (Fin n) (Fin n) ℝ} {e : Eig n} (he : EigOK eps K M e)
    (N : Matrix (Fin n) (Fin n) ℝ) (i j : Fin n) (hi : K ≤ i.1) (hj : K ≤ j.1) :
    (e.Uᵀ * N * e.U) i j = (e.Uᵀ * mask K N * e.U) i j := by
  simp only [Matrix.mul_apply, Matrix.transpose_apply]
  refine Finset.sum_congr rfl fun l _ => ?_
  by_cases hl : K ≤ l.1
  · congr 1
    refine Finset.sum_congr rfl fun k _ => ?_
    unfold mask
    rw [Matrix.of_apply]
    by_cases hk : K ≤ k.1
    · rw [if_pos ⟨hk, hl⟩]
    · rw [he.row k i (by omega), if_neg (fun h => by rw [h] at hk; exact hk hi)]
      ring
  · rw [he.row l j (by omega), if_neg (fun h => by rw [h] at hl; exact hl hj)]
    ring

/-- Outside the remaining block nothing changes. -/
theorem conj_row {eps : ℝ} {K : ℕ} {M : Matrix (Fin n) (Fin n) ℝ} {e : Eig n} (he : EigOK eps K M e)
    (N : Matrix (Fin n) (Fin n) ℝ) (i j : Fin n) (hi : i.1 < K) :
    (e.Uᵀ * N * e.U) i j = (N * e.U) i j := by
  rw [Matrix.mul_assoc, Matrix.mul_apply, Finset.sum_eq_single i]
  · rw [Matrix.transpose_apply, he.col i i hi, if_pos rfl, one_mul]
  · intro k _ hk
    rw [Matrix.transpose_apply, he.col k i hi, if_neg hk, zero_mul]
  · intro h; exact absurd (Finset.mem_univ _) h

theorem mul_col {eps : ℝ} {K : ℕ} {M : Matrix (Fin n) (Fin n) ℝ} {e : Eig n} (he : EigOK eps K M e)
    (N : Matrix (Fin n) (Fin n) ℝ) (i j : Fin n) (hj : j.1 < K) : (N * e.U) i j = N i j := by
  rw [Matrix.mul_apply, Finset.sum_eq_single j]
  · rw [he.col j j hj, if_pos rfl, mul_one]
  · intro k _ hk
    rw [he.col k j hj, if_neg hk, mul_zero]
  · intro h; exact absurd (Finset.mem_univ _) h

/-- A positive semidefinite matrix with a zero on the diagonal has a zero row and column there. -/
theorem psd_zero {M : Matrix (Fin n) (Fin n) ℝ} (hM : M.PosSemidef) (i : Fin n) (h0 : M i i = 0)
    (j : Fin n) : M i j = 0 ∧ M j i = 0 := by
  have hsym : ∀ a b, M a b = M b a := fun a b => by
    have := congrFun (congrFun hM.1 b) a
    rw [Matrix.conjTranspose_apply] at this
    simpa using this
  have hq : ∀ t : ℝ, 0 ≤ 2 * t * M i j + M j j * 1 := by
    intro t
    have h1 := hM.dotProduct_mulVec_nonneg (fun k => (if k = i then t else 0) + if k = j then 1 else 0)
    simp only [star_trivial] at h1
    have h2 : dotProduct (fun k => (if k = i then t else 0) + if k = j then (1 : ℝ) else 0)
        (M.mulVec (fun k => (if k = i then t else 0) + if k = j then (1 : ℝ) else 0))
        = t * (t * M i i + M i j) + (t * M j i + M j j) := by
      have hv : ∀ a, M.mulVec (fun k => (if k = i then t else 0) + if k = j then (1 : ℝ) else 0) a
          = t * M a i + M a j := by
        intro a
        unfold Matrix.mulVec dotProduct
        simp only [mul_add, mul_ite, mul_zero, mul_one, Finset.sum_add_distrib, Finset.sum_ite_eq',
          Finset.mem_univ, if_true]
        ring
      unfold dotProduct
      simp only [hv]
      simp only [add_mul, ite_mul, zero_mul, one_mul, Finset.sum_add_distrib, Finset.sum_ite_eq',
        Finset.mem_univ, if_true]
    rw [h2, h0, ← hsym i j] at h1
    linarith
  have hz : M i j = 0 := by
    by_contra hne
    have := hq (-(M j j + 1) / (2 * M i j))
    have h3 : 2 * (-(M j j + 1) / (2 * M i j)) * M i j = -(M j j + 1) := by
      field_simp
    rw [h3] at this
    linarith
  exact ⟨hz, by rw [hsym j i]; exact hz⟩

theorem psd_conj {M : Matrix (Fin n) (Fin n) ℝ} (hM : M.PosSemidef) (B : Matrix (Fin n) (Fin n) ℝ) :
    (Bᵀ * M * B).PosSemidef := by
  have := hM.conjTranspose_mul_mul_same B
  rwa [Matrix.conjTranspose_eq_transpose_of_trivial] at this

theorem tot_symm (lam : Fin J → ℝ) (SJ : Fin J → Matrix (Fin n) (Fin n) ℝ) (hS : ∀ j, (SJ j).PosSemidef) :
    (tot lam SJ)ᵀ = tot lam SJ := by
  unfold tot
  rw [Matrix.transpose_sum]
  refine Finset.sum_congr rfl fun j _ => ?_
  rw [Matrix.transpose_smul]
  congr 1
  have := (hS j).1
  rwa [Matrix.IsHermitian, Matrix.conjTranspose_eq_transpose_of_trivial] at this

/-- Eigenvalues beyond the rank vanish. -/
theorem D_zero {eps : ℝ} {K : ℕ} {M : Matrix (Fin n) (Fin n) ℝ} {e : Eig n} (he : EigOK eps K M e)
    (i : Fin n) (hi : K + rank eps K e.D ≤ i.1) : e.D i = 0 := by
  rcases he.exact i (by omega) with h | h
  · have := (big_iff eps K e.D he.anti i (by omega)).1 h
    omega
  · exact h

/-- One pass keeps the invariant. -/
theorem inv_step (lam : Fin J → ℝ) (hlam : ∀ j, 0 < lam j) (SJ : Fin J → Matrix (Fin n) (Fin n) ℝ)
    (hS : ∀ j, (SJ j).PosSemidef) (eps : ℝ) (st : St n J) (h : Inv lam SJ st) (am : Fin J)
    (hm : am ∈ st.rem) (e : Eig n) (he : EigOK eps st.K (Sk lam st am) e) :
    Inv lam SJ (transform lam st am e (rank eps st.K e.D)) := by
  set r := rank eps st.K e.D with hr
  have hrepPsd : ∀ j, (st.rep j).PosSemidef := fun j => by
    rw [h.rep j]; exact psd_conj (hS j) _
  -- the chosen penalty vanishes beyond its rank
  have ham : ∀ i k : Fin n, st.K + r ≤ i.1 ∨ st.K + r ≤ k.1 → (e.Uᵀ * st.rep am * e.U) i k = 0 := by
    have hdiag : ∀ i : Fin n, st.K + r ≤ i.1 → (e.Uᵀ * st.rep am * e.U) i i = 0 := by
      intro i hi
      rw [conj_block he _ i i (by omega) (by omega), ← h.bar am hm]
      have h1 := he.diag i i (by omega) (by omega)
      rw [if_pos rfl, D_zero he i hi] at h1
      unfold Sk at h1
      rw [Matrix.mul_smul, Matrix.smul_mul, Matrix.smul_apply, smul_eq_mul] at h1
      rcases mul_eq_zero.1 h1 with h2 | h2
      · exact absurd h2 (hlam am).ne'
      · exact h2
    intro i k hik
    have hp := psd_conj (hrepPsd am) e.U
    rcases hik with hi | hk
    · exact (psd_zero hp i (hdiag i hi) k).1
    · exact (psd_zero hp k (hdiag k hk) i).2
  have hTa : (Ta st e r)ᵀ * st.rep am * Ta st e r = e.Uᵀ * st.rep am * e.U := by
    have hent : ∀ i k : Fin n, ((Ta st e r)ᵀ * st.rep am * Ta st e r) i k
        = if i.1 < st.K + r ∧ k.1 < st.K + r then (e.Uᵀ * st.rep am * e.U) i k else 0 := by
      intro i k
      unfold Ta
      simp only [Matrix.mul_apply, Matrix.transpose_apply, Matrix.of_apply]
      by_cases hi : i.1 < st.K + r
      · by_cases hk : k.1 < st.K + r
        · rw [if_pos ⟨hi, hk⟩]
          simp only [if_pos hi, if_pos hk]
        · rw [if_neg (fun hh => hk hh.2)]
          simp only [if_neg hk, mul_zero, Finset.sum_const_zero]
      · rw [if_neg (fun hh => hi hh.1)]
        simp only [if_neg hi, zero_mul, Finset.sum_const_zero]
    ext i k
    rw [hent]
    by_cases hc : i.1 < st.K + r ∧ k.1 < st.K + r
    · rw [if_pos hc]
    · rw [if_neg hc, ham i k (by omega)]
  have hout : ∀ j, j ∉ st.rem → e.Uᵀ * st.rep j * e.U = st.rep j := by
    intro j hj
    ext i k
    have hz := h.out j hj
    by_cases hi : i.1 < st.K
    · rw [conj_row he _ i k hi]
      by_cases hk : k.1 < st.K
      · rw [mul_col he _ i k hk]
      · rw [hz i k (Or.inr (by omega)), Matrix.mul_apply]
        refine Finset.sum_eq_zero fun l _ => ?_
        by_cases hl : st.K ≤ l.1
        · rw [hz i l (Or.inr hl), zero_mul]
        · rw [he.row l k (by omega), if_neg (fun hh => by rw [hh] at hl; omega), mul_zero]
    · rw [hz i k (Or.inl (by omega)), Matrix.mul_assoc, Matrix.mul_apply]
      refine Finset.sum_eq_zero fun l _ => ?_
      by_cases hl : st.K ≤ l.1
      · rw [Matrix.mul_apply, Finset.sum_eq_zero (fun m _ => by rw [hz l m (Or.inl hl), zero_mul]), mul_zero]
      · rw [Matrix.transpose_apply, he.row l i (by omega), if_neg (fun hh => by rw [hh] at hl; omega), zero_mul]
  have hrep' : ∀ j, (transform lam st am e r).rep j = e.Uᵀ * st.rep j * e.U := by
    intro j
    show (if j = am then (Ta st e r)ᵀ * st.rep j * Ta st e r
      else if j ∈ st.rem then e.Uᵀ * st.rep j * e.U else st.rep j) = _
    by_cases hj : j = am
    · subst hj
      rw [if_pos rfl, hTa]
    · rw [if_neg hj]
      by_cases hjr : j ∈ st.rem
      · rw [if_pos hjr]
      · rw [if_neg hjr, hout j hjr]
  have hmem' : ∀ j, j ∈ (transform lam st am e r).rem ↔ j ∈ st.rem ∧ j ≠ am := by
    intro j
    show j ∈ st.rem.filter (fun j => j ≠ am) ↔ _
    rw [List.mem_filter]
    simp
  refine ⟨?_, h.nodup.filter _, ?_, ?_, ?_, ?_, ?_⟩
  · show (st.Q * e.U)ᵀ * (st.Q * e.U) = 1
    rw [Matrix.transpose_mul, Matrix.mul_assoc, ← Matrix.mul_assoc st.Qᵀ, h.orth, Matrix.one_mul, he.orth]
  · intro j
    rw [hrep' j, h.rep j]
    show _ = (st.Q * e.U)ᵀ * SJ j * (st.Q * e.U)
    rw [Matrix.transpose_mul]
    simp only [Matrix.mul_assoc]
  · intro j hj
    rw [hmem'] at hj
    show (if j ∈ st.rem ∧ j ≠ am then mask (st.K + r) (e.Uᵀ * st.bar j * e.U) else st.bar j) = _
    rw [if_pos hj, hrep' j]
    show _ = mask (st.K + r) _
    ext i k
    unfold mask
    rw [Matrix.of_apply, Matrix.of_apply]
    by_cases hc : st.K + r ≤ i.1 ∧ st.K + r ≤ k.1
    · rw [if_pos hc, if_pos hc, conj_block he (st.rep j) i k (by omega) (by omega), h.bar j hj.1]
    · rw [if_neg hc, if_neg hc]
  · intro j hj i k hik
    rw [hrep' j]
    replace hik : st.K + r ≤ i.1 ∨ st.K + r ≤ k.1 := hik
    by_cases hja : j = am
    · subst hja
      exact ham i k hik
    · have hjr : j ∉ st.rem := fun hh => hj ((hmem' j).2 ⟨hh, hja⟩)
      rw [hout j hjr]
      exact h.out j hjr i k (by omega)
  · intro s hs
    have hs' : newS lam st am e r = s := by
      have : some (newS lam st am e r) = some s := hs
      exact Option.some.inj this
    rw [← hs']
    show newS lam st am e r = (st.Q * e.U)ᵀ * tot lam SJ * (st.Q * e.U)
    set T := st.Qᵀ * tot lam SJ * st.Q with hT
    have hrhs : (st.Q * e.U)ᵀ * tot lam SJ * (st.Q * e.U) = e.Uᵀ * T * e.U := by
      rw [hT, Matrix.transpose_mul]
      simp only [Matrix.mul_assoc]
    rw [hrhs]
    have hTsym : Tᵀ = T := by
      rw [hT, Matrix.transpose_mul, Matrix.transpose_mul, Matrix.transpose_transpose, tot_symm lam SJ hS,
        Matrix.mul_assoc]
    have hC : ∀ i k : Fin n, st.K ≤ i.1 → st.K ≤ k.1 →
        blockC lam st am e r i k = (e.Uᵀ * T * e.U) i k := by
      intro i k hi hk
      rw [conj_block he T i k hi hk, mask_tot h, Sk_add_Sjk lam st am hm h.nodup, Matrix.mul_add,
        Matrix.add_mul, Matrix.add_apply, he.diag i k hi hk]
      unfold blockC
      rw [Matrix.of_apply]
      congr 1
      by_cases hik : i = k
      · subst hik
        rw [if_pos rfl]
        by_cases hlt : i.1 < st.K + r
        · rw [if_pos ⟨rfl, hlt⟩]
        · rw [if_neg (fun hh => hlt hh.2), D_zero he i (by omega)]
      · rw [if_neg hik, if_neg (fun hh => hik hh.1)]
    unfold newS
    cases hst : st.S with
    | none =>
      dsimp only
      have h0 := (h.none hst).2.1
      ext i k
      exact hC i k (by omega) (by omega)
    | some s0 =>
      dsimp only
      have hs0 : s0 = T := h.some s0 hst
      rw [hs0]
      ext i k
      rw [Matrix.of_apply]
      by_cases hi : i.1 < st.K
      · rw [if_pos hi, conj_row he T i k hi]
        by_cases hk : k.1 < st.K
        · rw [if_pos hk, mul_col he T i k hk]
        · rw [if_neg hk]
      · rw [if_neg hi]
        by_cases hk : k.1 < st.K
        · rw [if_pos hk]
          have hsymm : (e.Uᵀ * T * e.U) i k = (e.Uᵀ * T * e.U) k i := by
            have h1 : (e.Uᵀ * T * e.U)ᵀ = e.Uᵀ * T * e.U := by
              rw [Matrix.transpose_mul, Matrix.transpose_mul, Matrix.transpose_transpose, hTsym,
                Matrix.mul_assoc e.Uᵀ T e.U]
            exact congrFun (congrFun h1 k) i
          rw [hsymm, conj_row he T k i hk]
        · rw [if_neg hk]
          exact hC i k (by omega) (by omega)
  · intro hs
    exact absurd hs (by show ¬ some (newS lam st am e r) = none; simp)

theorem inv_init (lam : Fin J → ℝ) (SJ : Fin J → Matrix (Fin n) (Fin n) ℝ) : Inv lam SJ (init SJ) := by
  refine ⟨?_, List.nodup_finRange J, ?_, ?_, ?_, ?_, ?_⟩
  · show (1 : Matrix (Fin n) (Fin n) ℝ)ᵀ * 1 = 1
    rw [Matrix.transpose_one, Matrix.one_mul]
  · intro j
    show SJ j = (1 : Matrix (Fin n) (Fin n) ℝ)ᵀ * SJ j * 1
    rw [Matrix.transpose_one, Matrix.one_mul, Matrix.mul_one]
  · intro j _
    show SJ j = mask 0 (SJ j)
    ext i k
    unfold mask
    rw [Matrix.of_apply, if_pos ⟨by omega, by omega⟩]
  · intro j hj
    exact absurd (List.mem_finRange j) hj
  · intro s hs; cases hs
  · intro _; exact ⟨rfl, rfl, rfl⟩

/-- If a single penalty remains it has full rank on the remaining block. -/
theorem single_full (lam : Fin J → ℝ) (SJ : Fin J → Matrix (Fin n) (Fin n) ℝ)
    (hpd : (tot lam SJ).PosDef) (eps : ℝ) (st : St n J) (h : Inv lam SJ st) (am : Fin J) (hm : am ∈ st.rem)
    (hone : (st.rem.filter fun j => j ≠ am) = []) (e : Eig n) (he : EigOK eps st.K (Sk lam st am) e) :
    rank eps st.K e.D = n - st.K := by
  classical
  have hsum : mask st.K (st.Qᵀ * tot lam SJ * st.Q) = Sk lam st am := by
    rw [mask_tot h, Sk_add_Sjk lam st am hm h.nodup]
    unfold Sjk
    rw [hone, List.map_nil, List.sum_nil, add_zero]
  have hQinj : Function.Injective st.Q.mulVec := by
    intro x y hxy
    have h1 := congrArg (st.Qᵀ.mulVec) hxy
    simp only [Matrix.mulVec_mulVec, h.orth, Matrix.one_mulVec] at h1
    exact h1
  have hTpd : (st.Qᵀ * tot lam SJ * st.Q).PosDef := by
    have h1 := hpd.conjTranspose_mul_mul_same hQinj
    rwa [Matrix.conjTranspose_eq_transpose_of_trivial] at h1
  have hUinj : Function.Injective e.U.mulVec := by
    intro x y hxy
    have h1 := congrArg (e.Uᵀ.mulVec) hxy
    simp only [Matrix.mulVec_mulVec, he.orth, Matrix.one_mulVec] at h1
    exact h1
  have hUpd : (e.Uᵀ * (st.Qᵀ * tot lam SJ * st.Q) * e.U).PosDef := by
    have h1 := hTpd.conjTranspose_mul_mul_same hUinj
    rwa [Matrix.conjTranspose_eq_transpose_of_trivial] at h1
  have hD : ∀ i : Fin n, st.K ≤ i.1 → 0 < e.D i := by
    intro i hi
    have h1 := hUpd.diag_pos (i := i)
    rw [conj_block he _ i i hi hi, hsum, he.diag i i hi hi, if_pos rfl] at h1
    exact h1
  have hall : ∀ i : Fin n, st.K ≤ i.1 → big eps st.K e.D i := by
    intro i hi
    rcases he.exact i hi with h1 | h1
    · exact h1
    · exact absurd h1 (hD i hi).ne'
  unfold rank
  have hset : (Finset.univ.filter fun i : Fin n => st.K ≤ i.1 ∧ big eps st.K e.D i)
      = Finset.univ.filter fun i : Fin n => st.K ≤ i.1 := by
    ext i
    simp only [Finset.mem_filter, Finset.mem_univ, true_and]
    exact ⟨fun hh => hh.1, fun hh => ⟨hh, hall i hh⟩⟩
  rw [hset, ← Nat.card_Ico]
  refine Finset.card_bij (fun k _ => k.1) ?_ ?_ ?_
  · intro k hk
    rw [Finset.mem_filter] at hk
    exact Finset.mem_Ico.2 ⟨hk.2, k.2⟩
  · intro a _ b _ hab; exact Fin.ext hab
  · intro b hb'
    rw [Finset.mem_Ico] at hb'
    exact ⟨⟨b, hb'.2⟩, Finset.mem_filter.2 ⟨Finset.mem_univ _, hb'.1⟩, rfl⟩

theorem loop_inv (eig : ℕ → Matrix (Fin n) (Fin n) ℝ → Eig n) (eps : ℝ) (lam : Fin J → ℝ)
    (hlam : ∀ j, 0 < lam j) (SJ : Fin J → Matrix (Fin n) (Fin n) ℝ) (hS : ∀ j, (SJ j).PosSemidef)
    (hpd : (tot lam SJ).PosDef) (pick : St n J → Fin J) (fuel : ℕ) (st : St n J) (h : Inv lam SJ st)
    (hf : st.rem.length ≤ fuel) (hne : st.rem ≠ []) (hg : GoodRun eig eps lam pick fuel st) :
    ∃ st', loop eig eps lam pick fuel st = .done st' ∧ Inv lam SJ st' ∧
      (st.S = none → rank eps st.K (eig st.K (Sk lam st (pick st))).D ≠ n - st.K → st'.S ≠ none) ∧
      (st.S ≠ none → st'.S ≠ none) := by
  induction fuel generalizing st with
  | zero =>
    exfalso
    exact hne (List.length_eq_zero_iff.1 (by omega))
  | succ fuel ih =>
    obtain ⟨hp, he, hrest⟩ := hg
    rw [loop]
    set am := pick st with ham
    set e := eig st.K (Sk lam st am) with hedef
    by_cases hr : rank eps st.K e.D = n - st.K
    · rw [if_pos hr]
      exact ⟨st, rfl, h, fun _ hh => absurd hr hh, fun hh => hh⟩
    · rw [if_neg hr]
      by_cases hone : (st.rem.filter fun j => j ≠ am) = []
      · exact absurd (single_full lam SJ hpd eps st h am hp hone e he) hr
      · rw [if_neg hone]
        have hinv := inv_step lam hlam SJ hS eps st h am hp e he
        have hlen : (transform lam st am e (rank eps st.K e.D)).rem.length ≤ fuel := by
          show (st.rem.filter fun j => j ≠ am).length ≤ fuel
          have : (st.rem.filter fun j => j ≠ am).length < st.rem.length := by
            refine List.length_filter_lt_length_iff_exists.2 ⟨am, hp, ?_⟩
            simp
          omega
        obtain ⟨st', h1, h2, h3, h4⟩ := ih _ hinv hlen hone (hrest hr)
        refine ⟨st', h1, h2, fun _ _ => h4 ?_, fun _ => h4 ?_⟩
        · show some _ ≠ none; simp
        · show some _ ≠ none; simp

/-- **C41.** The similarity transform of the penalties of a term: ends without error, its matrix is
orthogonal, every transformed penalty is `Qᵀ S_j Q` and, when at least one pass transforms, the total is
`Qᵀ S_λ Q`. -/
theorem group_transform_partial (eig : ℕ → Matrix (Fin n) (Fin n) ℝ → Eig n) (eps : ℝ)
    (lam : Fin J → ℝ) (hlam : ∀ j, 0 < lam j) (SJ : Fin J → Matrix (Fin n) (Fin n) ℝ)
    (hS : ∀ j, (SJ j).PosSemidef) (hpd : (tot lam SJ).PosDef) (pick : St n J → Fin J) (j0 : Fin J)
    (hg : GoodRun eig eps lam pick J (init SJ)) :
    ∃ st, loop eig eps lam pick J (init SJ) = .done st ∧ st.Qᵀ * st.Q = 1 ∧
      (∀ j, st.rep j = st.Qᵀ * SJ j * st.Q) ∧
      (rank eps 0 (eig 0 (Sk lam (init SJ) (pick (init SJ)))).D ≠ n →
        finalS lam j0 st = st.Qᵀ * tot lam SJ * st.Q) := by
  have hne : (init SJ).rem ≠ [] := by
    intro hh
    have := List.mem_finRange j0
    rw [show List.finRange J = [] from hh] at this
    cases this
  obtain ⟨st, h1, h2, h3, -⟩ := loop_inv eig eps lam hlam SJ hS hpd pick J (init SJ) (inv_init lam SJ)
    (by show (List.finRange J).length ≤ J; rw [List.length_finRange]) hne hg
  refine ⟨st, h1, h2.orth, h2.rep, fun hr => ?_⟩
  have hs := h3 rfl (by show rank eps 0 _ ≠ n - 0; rw [Nat.sub_zero]; exact hr)
  unfold finalS
  cases hst : st.S with
  | none => exact absurd hst hs
  | some s => exact h2.some s hst

/-- **C41 (violated).** When the penalty chosen first has full rank, the total penalty returned is the
first penalty of the term alone. -/
theorem group_first_full (eig : ℕ → Matrix (Fin n) (Fin n) ℝ → Eig n) (eps : ℝ) (lam : Fin J → ℝ)
    (SJ : Fin J → Matrix (Fin n) (Fin n) ℝ) (pick : St n J → Fin J) (j0 : Fin J)
    (hr : rank eps 0 (eig 0 (Sk lam (init SJ) (pick (init SJ)))).D = n) :
    loop eig eps lam pick J (init SJ) = .done (init SJ) ∧ finalS lam j0 (init SJ) = lam j0 • SJ j0 := by
  obtain ⟨m, hm⟩ : ∃ m, J = m + 1 := ⟨J - 1, by have := j0.2; omega⟩
  subst hm
  refine ⟨?_, rfl⟩
  rw [loop]
  rw [if_pos]
  show rank eps 0 _ = n - 0
  rw [Nat.sub_zero]
  exact hr

/-- The decomposition of the balanced penalty `∑ S_j / ‖S_j‖` (366-381) is right and its rank exact. -/
structure BalOK {p : Type} [Fintype p] [DecidableEq p] {m : ℕ} (S : Fin J → Matrix p p ℝ) (U0 : Matrix p (Fin n ⊕ Fin m) ℝ)
    (w : Fin J → ℝ) (D0 : Fin n → ℝ) : Prop where
  wpos : ∀ j, 0 < w j
  orth : U0ᵀ * U0 = 1
  orth' : U0 * U0ᵀ = 1
  dpos : ∀ i, 0 < D0 i
  diag : U0ᵀ * (∑ j, w j • S j) * U0 = Matrix.fromBlocks (Matrix.diagonal D0) 0 0 0

section group

variable {p : Type} [Fintype p] [DecidableEq p] {m : ℕ}

theorem psd_conj' {q : Type} [Fintype q] {M : Matrix p p ℝ} (hM : M.PosSemidef) (B : Matrix p q ℝ) :
    (Bᵀ * M * B).PosSemidef := by
  have := hM.conjTranspose_mul_mul_same B
  rwa [Matrix.conjTranspose_eq_transpose_of_trivial] at this

/-- Zero on the diagonal of a positive semidefinite matrix, any index type. -/
theorem psd_zero' {q : Type} [Fintype q] [DecidableEq q] {M : Matrix q q ℝ} (hM : M.PosSemidef) (i : q)
    (h0 : M i i = 0) (j : q) : M i j = 0 ∧ M j i = 0 := by
  have e := Fintype.equivFin q
  have hN : (M.submatrix e.symm e.symm).PosSemidef := hM.submatrix _
  have := psd_zero hN (e i) (by simp [h0]) (e j)
  simpa using this

theorem bar0_block (U0 : Matrix p (Fin n ⊕ Fin m) ℝ) (S : Fin J → Matrix p p ℝ) (j : Fin J) (a b : Fin n) :
    (U0ᵀ * S j * U0) (Sum.inl a) (Sum.inl b) = bar0 U0 S j a b := by
  unfold bar0
  simp only [Matrix.mul_apply, Matrix.transpose_apply, Matrix.submatrix_apply, id]

/-- In the basis of the balanced penalty every penalty vanishes outside the range space. -/
theorem conj_pad (S : Fin J → Matrix p p ℝ) (hS : ∀ j, (S j).PosSemidef) (U0 : Matrix p (Fin n ⊕ Fin m) ℝ)
    (w : Fin J → ℝ) (D0 : Fin n → ℝ) (h : BalOK S U0 w D0) (j : Fin J) :
    U0ᵀ * S j * U0 = pad (bar0 U0 S j) := by
  have hp : ∀ j, (U0ᵀ * S j * U0).PosSemidef := fun j => psd_conj' (hS j) U0
  have hsum : ∑ j, w j • (U0ᵀ * S j * U0) = Matrix.fromBlocks (Matrix.diagonal D0) 0 0 0 := by
    rw [← h.diag, Matrix.mul_sum, Matrix.sum_mul]
    refine Finset.sum_congr rfl fun k _ => ?_
    rw [Matrix.mul_smul, Matrix.smul_mul]
  have hzero : ∀ b : Fin m, (U0ᵀ * S j * U0) (Sum.inr b) (Sum.inr b) = 0 := by
    intro b
    have h1 := congrFun (congrFun hsum (Sum.inr b)) (Sum.inr b)
    rw [Matrix.sum_apply, Matrix.fromBlocks_apply₂₂, Matrix.zero_apply] at h1
    have h2 := (Finset.sum_eq_zero_iff_of_nonneg (fun k _ => by
      rw [Matrix.smul_apply, smul_eq_mul]
      exact mul_nonneg (h.wpos k).le ((hp k).diag_nonneg))).1 h1 j (Finset.mem_univ j)
    rw [Matrix.smul_apply, smul_eq_mul] at h2
    exact (mul_eq_zero.1 h2).resolve_left (h.wpos j).ne'
  unfold pad
  ext a b
  rcases a with a | a
  · rcases b with b | b
    · rw [Matrix.fromBlocks_apply₁₁]; exact bar0_block U0 S j a b
    · rw [Matrix.fromBlocks_apply₁₂]; exact (psd_zero' (hp j) _ (hzero b) _).2
  · rcases b with b | b
    · rw [Matrix.fromBlocks_apply₂₁]; exact (psd_zero' (hp j) _ (hzero a) _).1
    · rw [Matrix.fromBlocks_apply₂₂]; exact (psd_zero' (hp j) _ (hzero a) _).1

theorem bar0_psd (S : Fin J → Matrix p p ℝ) (hS : ∀ j, (S j).PosSemidef) (U0 : Matrix p (Fin n ⊕ Fin m) ℝ)
    (j : Fin J) : (bar0 U0 S j).PosSemidef := psd_conj' (hS j) _

/-- On the range space the total penalty is positive definite. -/
theorem tot_pd (S : Fin J → Matrix p p ℝ) (hS : ∀ j, (S j).PosSemidef) (U0 : Matrix p (Fin n ⊕ Fin m) ℝ)
    (w : Fin J → ℝ) (D0 : Fin n → ℝ) (h : BalOK S U0 w D0) (lam : Fin J → ℝ) (hlam : ∀ j, 0 < lam j) :
    (tot lam (bar0 U0 S)).PosDef := by
  have hsum : ∑ j, w j • bar0 U0 S j = Matrix.diagonal D0 := by
    have h1 : ∑ j, w j • (U0ᵀ * S j * U0) = Matrix.fromBlocks (Matrix.diagonal D0) 0 0 0 := by
      rw [← h.diag, Matrix.mul_sum, Matrix.sum_mul]
      refine Finset.sum_congr rfl fun k _ => ?_
      rw [Matrix.mul_smul, Matrix.smul_mul]
    ext a b
    have h2 := congrFun (congrFun h1 (Sum.inl a)) (Sum.inl b)
    rw [Matrix.sum_apply, Matrix.fromBlocks_apply₁₁] at h2
    rw [Matrix.sum_apply, ← h2]
    refine Finset.sum_congr rfl fun k _ => ?_
    rw [Matrix.smul_apply, Matrix.smul_apply, bar0_block]
  refine Matrix.PosDef.of_dotProduct_mulVec_pos ?_ fun x hx => ?_
  · rw [Matrix.IsHermitian, Matrix.conjTranspose_eq_transpose_of_trivial]
    exact tot_symm lam _ (bar0_psd S hS U0)
  · rw [star_trivial]
    have hq : ∀ c : Fin J → ℝ, x ⬝ᵥ (∑ j, c j • bar0 U0 S j).mulVec x
        = ∑ j, c j * (x ⬝ᵥ (bar0 U0 S j).mulVec x) := by
      intro c
      rw [Matrix.sum_mulVec, dotProduct_sum]
      refine Finset.sum_congr rfl fun k _ => ?_
      rw [Matrix.smul_mulVec, dotProduct_smul, smul_eq_mul]
    have hnn : ∀ j, 0 ≤ x ⬝ᵥ (bar0 U0 S j).mulVec x := fun j => by
      have := (bar0_psd S hS U0 j).dotProduct_mulVec_nonneg x
      rwa [star_trivial] at this
    unfold tot
    rw [hq]
    refine lt_of_le_of_ne (Finset.sum_nonneg fun j _ => mul_nonneg (hlam j).le (hnn j)) fun h0 => ?_
    have hz : ∀ j, x ⬝ᵥ (bar0 U0 S j).mulVec x = 0 := by
      intro j
      have h2 := (Finset.sum_eq_zero_iff_of_nonneg (fun k _ => mul_nonneg (hlam k).le (hnn k))).1 h0.symm j
        (Finset.mem_univ j)
      exact (mul_eq_zero.1 h2).resolve_left (hlam j).ne'
    have h3 := hq w
    rw [hsum, Finset.sum_eq_zero (fun j _ => by rw [hz j, mul_zero])] at h3
    have h4 : (Matrix.diagonal D0).PosDef := Matrix.PosDef.diagonal h.dpos
    have h5 := h4.dotProduct_mulVec_pos hx
    rw [star_trivial] at h5
    linarith

theorem blocks_orth {Q : Matrix (Fin n) (Fin n) ℝ} (hQ : Qᵀ * Q = 1) :
    (Matrix.fromBlocks Q 0 0 (1 : Matrix (Fin m) (Fin m) ℝ))ᵀ * Matrix.fromBlocks Q 0 0 1 = 1 := by
  rw [Matrix.fromBlocks_transpose, Matrix.fromBlocks_multiply, hQ]
  simp [Matrix.fromBlocks_one]

theorem blocks_conj (Q M : Matrix (Fin n) (Fin n) ℝ) :
    (Matrix.fromBlocks Q 0 0 (1 : Matrix (Fin m) (Fin m) ℝ))ᵀ * pad M * Matrix.fromBlocks Q 0 0 1
      = pad (Qᵀ * M * Q) := by
  unfold pad
  rw [Matrix.fromBlocks_transpose, Matrix.fromBlocks_multiply, Matrix.fromBlocks_multiply]
  simp

/-- What a user relies on for one group: orthogonal transformation, and every penalty and their weighted
sum are the originals seen through it. -/
def Faithful (lam : Fin J → ℝ) (S : Fin J → Matrix p p ℝ) (o : Out p n m J) : Prop :=
  o.Qᵀ * o.Q = 1 ∧ o.Q * o.Qᵀ = 1 ∧ (∀ j, o.rep j = o.Qᵀ * S j * o.Q) ∧
    o.S = o.Qᵀ * (∑ j, lam j • S j) * o.Q

/-- **C41.** The group of penalties of a term is transformed faithfully, unless it has several penalties
and the one chosen first has full rank. -/
theorem group_faithful_partial (eig : ℕ → Matrix (Fin n) (Fin n) ℝ → Eig n) (eps : ℝ) (lam : Fin J → ℝ)
    (hlam : ∀ j, 0 < lam j) (pick : St n J → Fin J) (j0 : Fin J) (U0 : Matrix p (Fin n ⊕ Fin m) ℝ)
    (S : Fin J → Matrix p p ℝ) (hS : ∀ j, (S j).PosSemidef) (w : Fin J → ℝ) (D0 : Fin n → ℝ)
    (hb : BalOK S U0 w D0) (hg : GoodRun eig eps lam pick J (init (bar0 U0 S)))
    (hr : J = 1 ∨ rank eps 0 (eig 0 (Sk lam (init (bar0 U0 S)) (pick (init (bar0 U0 S))))).D ≠ n) :
    ∃ o, group eig eps lam pick j0 U0 S = some o ∧ Faithful lam S o := by
  unfold group
  have htot : U0ᵀ * (∑ j, lam j • S j) * U0 = pad (tot lam (bar0 U0 S)) := by
    rw [Matrix.mul_sum, Matrix.sum_mul]
    have h1 : ∀ j ∈ Finset.univ, U0ᵀ * lam j • S j * U0 = pad (lam j • bar0 U0 S j) := by
      intro j _
      rw [Matrix.mul_smul, Matrix.smul_mul, conj_pad S hS U0 w D0 hb j]
      unfold pad
      rw [Matrix.fromBlocks_smul]
      simp
    rw [Finset.sum_congr rfl h1]
    unfold pad tot
    ext a b
    rw [Matrix.sum_apply]
    rcases a with a | a <;> rcases b with b | b <;> simp [Matrix.sum_apply]
  by_cases hJ : J = 1
  · rw [if_pos hJ]
    refine ⟨_, rfl, hb.orth, hb.orth', fun j => (conj_pad S hS U0 w D0 hb j).symm, ?_⟩
    show pad (lam j0 • bar0 U0 S j0) = U0ᵀ * (∑ j, lam j • S j) * U0
    rw [htot]
    congr 1
    subst hJ
    unfold tot
    rw [Fin.sum_univ_one, Subsingleton.elim j0 0]
  · rw [if_neg hJ]
    have hr' := hr.resolve_left hJ
    have hne : (init (bar0 U0 S)).rem ≠ [] := by
      intro hh
      have := List.mem_finRange j0
      rw [show List.finRange J = [] from hh] at this
      cases this
    obtain ⟨st, h1, h2, h3, -⟩ := loop_inv eig eps lam hlam _ (bar0_psd S hS U0)
      (tot_pd S hS U0 w D0 hb lam hlam) pick J (init (bar0 U0 S)) (inv_init lam _)
      (by show (List.finRange J).length ≤ J; rw [List.length_finRange]) hne hg
    have hs := h3 rfl (by show rank eps 0 _ ≠ n - 0; rw [Nat.sub_zero]; exact hr')
    rw [h1]
    dsimp only
    rw [if_neg (fun hh => hs hh.1)]
    obtain ⟨s, hss⟩ := Option.ne_none_iff_exists'.1 hs
    have hS' : finalS lam j0 st = st.Qᵀ * tot lam (bar0 U0 S) * st.Q := by
      unfold finalS
      rw [hss]
      exact h2.some s hss
    have ho := blocks_orth (m := m) h2.orth
    have ho' := mul_eq_one_comm.1 ho
    refine ⟨_, rfl, ?_, ?_, fun j => ?_, ?_⟩
    · show (U0 * Matrix.fromBlocks st.Q 0 0 1)ᵀ * (U0 * Matrix.fromBlocks st.Q 0 0 1) = 1
      rw [Matrix.transpose_mul, Matrix.mul_assoc, ← Matrix.mul_assoc U0ᵀ, hb.orth, Matrix.one_mul, ho]
    · show U0 * Matrix.fromBlocks st.Q 0 0 1 * (U0 * Matrix.fromBlocks st.Q 0 0 1)ᵀ = 1
      rw [Matrix.transpose_mul, Matrix.mul_assoc, ← Matrix.mul_assoc (Matrix.fromBlocks st.Q 0 0 1), ho',
        Matrix.one_mul, hb.orth']
    · show pad (st.rep j) = (U0 * Matrix.fromBlocks st.Q 0 0 1)ᵀ * S j * (U0 * Matrix.fromBlocks st.Q 0 0 1)
      rw [h2.rep j, ← blocks_conj, ← conj_pad S hS U0 w D0 hb j, Matrix.transpose_mul]
      simp only [Matrix.mul_assoc]
    · show pad (finalS lam j0 st) = (U0 * Matrix.fromBlocks st.Q 0 0 1)ᵀ * (∑ j, lam j • S j)
        * (U0 * Matrix.fromBlocks st.Q 0 0 1)
      rw [hS', ← blocks_conj, ← htot, Matrix.transpose_mul]
      simp only [Matrix.mul_assoc]

/-- **C41 (violated).** A term with several penalties whose first chosen penalty has full rank on a proper
subspace of the coefficients: the shapes do not match and the call fails. -/
theorem group_fails (eig : ℕ → Matrix (Fin n) (Fin n) ℝ → Eig n) (eps : ℝ) (lam : Fin J → ℝ)
    (pick : St n J → Fin J) (j0 : Fin J) (U0 : Matrix p (Fin n ⊕ Fin m) ℝ) (S : Fin J → Matrix p p ℝ)
    (hJ : J ≠ 1) (hm : m ≠ 0)
    (hr : rank eps 0 (eig 0 (Sk lam (init (bar0 U0 S)) (pick (init (bar0 U0 S))))).D = n) :
    group eig eps lam pick j0 U0 S = none := by
  unfold group
  rw [if_neg hJ, (group_first_full eig eps lam (bar0 U0 S) pick j0 hr).1]
  dsimp only
  rw [if_pos ⟨rfl, hm⟩]

end group

/-- **C41.** Fitting in the new parameterisation: with `coef_rp = Qᵀ coef`, the penalty term is unchanged,
the penalised Hessian is the original one seen through `Q`, and transforming its inverse back gives the
inverse of the original penalised Hessian. -/
theorem fit_back {q : Type} [Fintype q] [DecidableEq q] (Q H S R V : Matrix q q ℝ) (hQ : Qᵀ * Q = 1) (hR : R = Qᵀ * S * Q) (coef : q → ℝ)
    (hV : V * (Qᵀ * H * Q + R) = 1) :
    (Qᵀ *ᵥ coef) ⬝ᵥ R *ᵥ (Qᵀ *ᵥ coef) = coef ⬝ᵥ S *ᵥ coef ∧
    (∀ x : q → ℝ, x ⬝ᵥ (Qᵀ * H * Q + R) *ᵥ x = (Q *ᵥ x) ⬝ᵥ (H + S) *ᵥ (Q *ᵥ x)) ∧
    (Q * V * Qᵀ) * (H + S) = 1 := by
  have hQ' := mul_eq_one_comm.1 hQ
  refine ⟨?_, fun x => ?_, ?_⟩
  · rw [hR, Matrix.mulVec_mulVec, Matrix.mul_assoc, Matrix.mul_assoc, hQ', Matrix.mul_one, ← Matrix.mulVec_mulVec,
      Matrix.dotProduct_mulVec, Matrix.vecMul_transpose, Matrix.mulVec_mulVec, hQ', Matrix.one_mulVec]
  · have : Qᵀ * H * Q + R = Qᵀ * (H + S) * Q := by rw [hR, Matrix.mul_add, Matrix.add_mul]
    rw [this, ← Matrix.mulVec_mulVec, ← Matrix.mulVec_mulVec, Matrix.dotProduct_mulVec, Matrix.vecMul_transpose]
  · have h1 : Qᵀ * H * Q + R = Qᵀ * (H + S) * Q := by rw [hR, Matrix.mul_add, Matrix.add_mul]
    rw [h1] at hV
    have h2 := mul_eq_one_comm.1 hV
    have h3 : (H + S) * (Q * V * Qᵀ) = 1 := by
      have h4 : Q * (Qᵀ * (H + S) * Q * V) * Qᵀ = 1 := by rw [h2, Matrix.mul_one, hQ']
      have h5 : Q * (Qᵀ * (H + S) * Q * V) * Qᵀ = (Q * Qᵀ) * ((H + S) * (Q * V * Qᵀ)) := by
        simp only [Matrix.mul_assoc]
      rw [h5, hQ', Matrix.one_mul] at h4
      exact h4
    exact mul_eq_one_comm.1 h3

example := fit_back (q := Fin 1) 1 1 1 1 (Matrix.diagonal fun _ => 1 / 2) (by simp) (by simp) ![3] (by
  ext i j; rw [Subsingleton.elim i 0, Subsingleton.elim j 0]; simp [Matrix.mul_apply]; norm_num [Matrix.one_apply, ← one_add_one_eq_two])

/-! ## Concrete cases -/

/-- Decomposition of a diagonal matrix whose entries are in decreasing order. -/
def eigDiag (n : ℕ) : ℕ → Matrix (Fin n) (Fin n) ℝ → Eig n := fun _ M => ⟨1, fun i => M i i⟩

theorem eigDiag_ok (eps : ℝ) (K : ℕ) (M : Matrix (Fin n) (Fin n) ℝ) (hd : ∀ i j, i ≠ j → M i j = 0)
    (ha : ∀ i j : Fin n, K ≤ i.1 → i ≤ j → M j j ≤ M i i)
    (he : ∀ i : Fin n, K ≤ i.1 → big eps K (fun i => M i i) i ∨ M i i = 0) :
    EigOK eps K M (eigDiag n K M) := by
  refine ⟨?_, ?_, ?_, ?_, ha, he⟩
  · show (1 : Matrix (Fin n) (Fin n) ℝ)ᵀ * 1 = 1
    rw [Matrix.transpose_one, Matrix.one_mul]
  · intro i j _; exact Matrix.one_apply
  · intro i j _; exact Matrix.one_apply
  · intro i j _ _
    show ((1 : Matrix (Fin n) (Fin n) ℝ)ᵀ * M * (1 : Matrix (Fin n) (Fin n) ℝ)) i j = _
    rw [Matrix.transpose_one, Matrix.one_mul, Matrix.mul_one]
    by_cases hij : i = j
    · subst hij; rw [if_pos rfl]; rfl
    · rw [if_neg hij, hd i j hij]

/-- Two penalties of rank one. -/
def exS (j : Fin 2) : Matrix (Fin 2) (Fin 2) ℝ := Matrix.diagonal fun i => if i = j then 1 else 0

theorem exS_rank : rank (1 / 100 : ℝ) 0 (fun i => (Sk ![3, 5] (init exS) 0) i i) = 1 := by
  have h0 := big_iff (1 / 100 : ℝ) 0 (fun i => (Sk ![3, 5] (init exS) 0) i i) (by
    intro i j _ hij
    fin_cases i <;> fin_cases j <;> simp [Sk, init, exS] at hij ⊢)
  have h1 := (h0 0 (by simp)).1 (by intro k _; fin_cases k <;> norm_num [Sk, init, exS])
  have h2 : ¬ (1 : Fin 2).1 < 0 + rank (1 / 100 : ℝ) 0 (fun i => (Sk ![3, 5] (init exS) 0) i i) := fun h => by
    have := (h0 1 (by simp)).2 h 0 (by simp)
    norm_num [Sk, init, exS] at this
  change 0 < _ at h1
  change ¬ 1 < _ at h2
  omega

theorem exGood : GoodRun (eigDiag 2) (1 / 100) ![3, 5] (fun st => st.rem.headD 0) 2 (init exS) := by
  refine ⟨by decide, ?_, fun _ => ⟨?_, ?_, fun _ => trivial⟩⟩
  · refine eigDiag_ok _ _ _ ?_ ?_ ?_
    · intro i j hij
      show (Sk ![3, 5] (init exS) 0) i j = 0
      fin_cases i <;> fin_cases j <;> simp [Sk, init, exS] at hij ⊢
    · intro i j _ hij
      show (Sk ![3, 5] (init exS) 0) j j ≤ (Sk ![3, 5] (init exS) 0) i i
      fin_cases i <;> fin_cases j <;> simp [Sk, init, exS] at hij ⊢
    · intro i _
      show big _ 0 (fun i => (Sk ![3, 5] (init exS) 0) i i) i ∨ (Sk ![3, 5] (init exS) 0) i i = 0
      fin_cases i
      · left; intro k _; fin_cases k <;> norm_num [Sk, init, exS]
      · right; simp [Sk, init, exS]
  · show (1 : Fin 2) ∈ [1]
    simp
  · have hK : (transform ![3, 5] (init exS) 0 (eigDiag 2 0 (Sk ![3, 5] (init exS) 0))
      (rank (1 / 100) 0 (eigDiag 2 0 (Sk ![3, 5] (init exS) 0)).D)).K = 1 := by
      show 0 + rank (1 / 100) 0 (fun i => (Sk ![3, 5] (init exS) 0) i i) = 1
      rw [exS_rank]
    set st := transform ![3, 5] (init exS) 0 (eigDiag 2 0 (Sk ![3, 5] (init exS) 0))
      (rank (1 / 100) 0 (eigDiag 2 0 (Sk ![3, 5] (init exS) 0)).D) with hst
    have hM : Sk ![3, 5] st 1 = Matrix.diagonal ![0, 5] := by
      have hb : st.bar 1 = mask st.K (exS 1) := by
        rw [hst]
        unfold transform
        dsimp only
        have hc : (1 : Fin 2) ∈ (init exS).rem ∧ (1 : Fin 2) ≠ 0 := by
          show (1 : Fin 2) ∈ List.finRange 2 ∧ (1 : Fin 2) ≠ 0
          decide
        rw [if_pos hc]
        show mask _ ((1 : Matrix (Fin 2) (Fin 2) ℝ)ᵀ * exS 1 * (1 : Matrix (Fin 2) (Fin 2) ℝ)) = mask _ _
        rw [Matrix.transpose_one, Matrix.one_mul, Matrix.mul_one]
      unfold Sk
      rw [hb, hK]
      ext i j
      fin_cases i <;> fin_cases j <;> simp [mask, exS]
    have hp : (fun st : St 2 2 => st.rem.headD 0) st = 1 := by
      rw [hst]
      show ((List.finRange 2).filter fun j => j ≠ 0).headD 0 = 1
      decide
    change EigOK _ st.K (Sk ![3, 5] st ((fun st : St 2 2 => st.rem.headD 0) st))
      (eigDiag 2 st.K (Sk ![3, 5] st ((fun st : St 2 2 => st.rem.headD 0) st)))
    rw [hp, hM, hK]
    refine eigDiag_ok _ _ _ ?_ ?_ ?_
    · intro i j hij
      fin_cases i <;> fin_cases j <;> simp at hij ⊢
    · intro i j hi hij
      fin_cases i <;> fin_cases j <;> simp at hi hij <;> simp
    · intro i hi
      fin_cases i
      · simp at hi
      · left; intro k hk; fin_cases k <;> first | (norm_num at hk; done) | norm_num

theorem exS_psd (j : Fin 2) : (exS j).PosSemidef :=
  Matrix.PosSemidef.diagonal fun i => by dsimp only; split_ifs <;> norm_num

/-- Two penalties of rank one on the first two of three coefficients, weights 3 and 5. -/
theorem exBar : bar0 (1 : Matrix (Fin 2 ⊕ Fin 1) (Fin 2 ⊕ Fin 1) ℝ) (fun j => pad (exS j)) = exS := by
  funext j
  ext a b
  rw [← bar0_block, Matrix.transpose_one, Matrix.one_mul, Matrix.mul_one]
  rfl

theorem exBal : BalOK (fun j : Fin 2 => (pad (exS j) : Matrix (Fin 2 ⊕ Fin 1) (Fin 2 ⊕ Fin 1) ℝ))
    (1 : Matrix (Fin 2 ⊕ Fin 1) (Fin 2 ⊕ Fin 1) ℝ) (fun _ => 1) (fun _ => 1) := by
  refine ⟨fun _ => one_pos, by simp, by simp, fun _ => one_pos, ?_⟩
  rw [Matrix.transpose_one, Matrix.one_mul, Matrix.mul_one, Fin.sum_univ_two]
  ext a b
  rcases a with a | a <;> rcases b with b | b <;> fin_cases a <;> fin_cases b <;> simp [pad, exS]

example : ∃ o, group (eigDiag 2) (1 / 100) ![3, 5] (fun st => st.rem.headD 0) 0
    (1 : Matrix (Fin 2 ⊕ Fin 1) (Fin 2 ⊕ Fin 1) ℝ) (fun j => pad (exS j)) = some o ∧
    Faithful ![3, 5] (fun j => pad (exS j)) o := by
  refine group_faithful_partial (eigDiag 2) (1 / 100) ![3, 5] ?_ _ 0 1 _ ?_ (fun _ => 1) (fun _ => 1) exBal ?_ ?_
  · intro j; fin_cases j <;> norm_num
  · intro j
    have := psd_conj' (exS_psd j) (Matrix.of fun (a : Fin 2) (b : Fin 2 ⊕ Fin 1) => Sum.elim (fun c => if a = c then (1 : ℝ) else 0) (fun _ => 0) b)
    convert this using 1
    ext a b
    rcases a with a | a <;> rcases b with b | b <;> fin_cases a <;> fin_cases b <;>
      simp [pad, exS, Matrix.mul_apply]
  · rw [exBar]; exact exGood
  · right
    rw [exBar]
    show rank (1 / 100 : ℝ) 0 (fun i => (Sk ![3, 5] (init exS) 0) i i) ≠ 2
    rw [exS_rank]
    norm_num

/-- **C41 (violated).** One coefficient with two penalties, weights 2 and 1: the penalty in the new
parameterisation is 2, not 3. -/
theorem group_loses_penalty : ∃ o, group (eigDiag 1) (1 / 100) ![2, 1] (fun st => st.rem.headD 0) 0
    (1 : Matrix (Fin 1 ⊕ Fin 0) (Fin 1 ⊕ Fin 0) ℝ) (fun _ : Fin 2 => 1) = some o ∧
    ¬ Faithful ![2, 1] (fun _ : Fin 2 => 1) o := by
  have hbar : bar0 (1 : Matrix (Fin 1 ⊕ Fin 0) (Fin 1 ⊕ Fin 0) ℝ) (fun _ : Fin 2 => 1) = fun _ => 1 := by
    funext j
    ext a b
    rw [← bar0_block, Matrix.transpose_one, Matrix.one_mul, Matrix.mul_one]
    simp [Matrix.one_apply]
  have hr : rank (1 / 100 : ℝ) 0 (eigDiag 1 0 (Sk ![2, 1] (init fun _ : Fin 2 => 1) 0)).D = 1 := by
    have h0 := big_iff (1 / 100 : ℝ) 0 (eigDiag 1 0 (Sk ![2, 1] (init fun _ : Fin 2 => 1) 0)).D (by
      intro i j _ _; rw [Subsingleton.elim i j])
    have h1 := (h0 0 (by simp)).1 (by intro k _; rw [Subsingleton.elim k 0]; norm_num [eigDiag, Sk, init])
    have h2 : rank (1 / 100 : ℝ) 0 (eigDiag 1 0 (Sk ![2, 1] (init fun _ : Fin 2 => 1) 0)).D ≤ 1 := by
      unfold rank
      exact le_trans (Finset.card_le_univ _) (by simp)
    change 0 < _ at h1
    omega
  have hl := group_first_full (eigDiag 1) (1 / 100) ![2, 1] (fun _ : Fin 2 => 1) (fun st => st.rem.headD 0) 0 hr
  unfold group
  rw [if_neg (by norm_num), hbar, hl.1]
  dsimp only
  rw [if_neg (by simp)]
  refine ⟨_, rfl, fun hf => ?_⟩
  have h1 := congrFun (congrFun hf.2.2.2 (Sum.inl 0)) (Sum.inl 0)
  simp [pad, finalS, init, Fin.sum_univ_two, Matrix.mul_apply] at h1

end Verif.Repara
