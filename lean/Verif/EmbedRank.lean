import Verif.Embed
import Mathlib.LinearAlgebra.Matrix.Rank
import Mathlib.Data.Matrix.Block

/-!
# The rank recorded for an embedded penalty (property C25)
-/

namespace Verif.Pen

open Finset Matrix

/-- A matrix which is zero outside the rows and columns picked by an injection has the rank of the part picked. -/
theorem rank_pick {α ι : Type} [Fintype α] [Fintype ι] [DecidableEq ι] (e : α → ι) (he : Function.Injective e)
    (N : Matrix ι ι ℝ) (h0 : ∀ i j, (i ∉ Set.range e ∨ j ∉ Set.range e) → N i j = 0) :
    N.rank = (N.submatrix e e).rank := by
  classical
  refine le_antisymm ?_ (rank_submatrix_le N e e)
  let E : Matrix ι α ℝ := Matrix.of fun i a => if e a = i then 1 else 0
  have h : N = E * N.submatrix e e * Eᵀ := by
    ext i j
    simp only [E, Matrix.mul_apply, submatrix_apply, transpose_apply, of_apply, ite_mul, one_mul, zero_mul, mul_ite, mul_one,
      mul_zero]
    by_cases hi : i ∈ Set.range e
    · by_cases hj : j ∈ Set.range e
      · obtain ⟨a, rfl⟩ := hi
        obtain ⟨b, rfl⟩ := hj
        rw [Finset.sum_eq_single b]
        · rw [if_pos rfl, Finset.sum_eq_single a]
          · rw [if_pos rfl]
          · intro c _ hc
            rw [if_neg fun hh => hc (he hh)]
          · simp
        · intro c _ hc
          rw [if_neg fun hh => hc (he hh)]
        · simp
      · rw [h0 i j (Or.inr hj)]
        symm
        refine Finset.sum_eq_zero fun b _ => ?_
        rw [if_neg fun hh => hj ⟨b, hh⟩]
    · rw [h0 i j (Or.inl hi)]
      symm
      refine Finset.sum_eq_zero fun b _ => ?_
      split_ifs with hb
      · refine Finset.sum_eq_zero fun a _ => ?_
        rw [if_neg fun hh => hi ⟨a, hh⟩]
      · rfl
  calc N.rank = (E * N.submatrix e e * Eᵀ).rank := by rw [← h]
    _ ≤ (E * N.submatrix e e).rank := rank_mul_le_left _ _
    _ ≤ (N.submatrix e e).rank := rank_mul_le_right _ _

/-- Copies of a matrix along the diagonal. -/
theorem rank_copies {k L : ℕ} (A : Matrix (Fin k) (Fin k) ℝ) :
    (blockDiagonal fun _ : Fin L => A).rank = A.rank * L := by
  let f : (Fin L → LinearMap.range A.mulVecLin) →ₗ[ℝ] (Fin k × Fin L → ℝ) :=
    { toFun := fun g p => (g p.2).1 p.1
      map_add' := fun g h => by ext p; simp
      map_smul' := fun c g => by ext p; simp }
  have hf : Function.Injective f := by
    intro g h hgh
    funext l
    apply Subtype.ext
    funext i
    exact congrFun hgh (i, l)
  have hB : ∀ v : Fin k × Fin L → ℝ, ∀ p, ((blockDiagonal fun _ : Fin L => A) *ᵥ v) p
      = (A *ᵥ fun i => v (i, p.2)) p.1 := by
    intro v p
    simp only [Matrix.mulVec, dotProduct, Fintype.sum_prod_type, blockDiagonal_apply, ite_mul, zero_mul]
    refine Finset.sum_congr rfl fun i _ => ?_
    rw [Finset.sum_ite_eq]
    simp
  have hr : LinearMap.range f = LinearMap.range (blockDiagonal fun _ : Fin L => A).mulVecLin := by
    ext w
    constructor
    · rintro ⟨g, rfl⟩
      choose v hv using fun l => (g l).2
      refine ⟨fun p => v p.2 p.1, ?_⟩
      funext p
      rw [mulVecLin_apply, hB]
      exact congrFun (hv p.2) p.1
    · rintro ⟨v, rfl⟩
      refine ⟨fun l => ⟨A *ᵥ fun i => v (i, l), ⟨fun i => v (i, l), rfl⟩⟩, ?_⟩
      funext p
      rw [mulVecLin_apply, hB]
      rfl
  rw [Matrix.rank, ← hr, LinearMap.finrank_range_of_inj hf, Module.finrank_pi_fintype, Finset.sum_const,
    Finset.card_univ, Fintype.card_fin, smul_eq_mul, Matrix.rank, Nat.mul_comm]

/-- **C25.** The rank recorded for a term is the rank of its embedded penalty, whatever the number of repeats and the
place in the model, provided that the rank given for one repeat is that of the term's own penalty. -/
theorem embed_rank (T Dl : Trip) (k rank levels cur n : ℕ) (id : Option ℕ) (lam : ℝ)
    (hT : InRange k T) (hl : 0 < levels) (hn : cur + levels * k ≤ n)
    (hr : rank = (toM k k (buildShared T Dl k rank levels cur id lam).1.SJ).rank) :
    (buildShared T Dl k rank levels cur id lam).1.rank
      = (toM n n (buildShared T Dl k rank levels cur id lam).1.Semb).rank := by
  have hlt : ∀ p : Fin k × Fin levels, cur + p.2 * k + p.1 < n := by
    rintro ⟨a, t⟩
    have h1 : (t.1 + 1) * k ≤ levels * k := Nat.mul_le_mul_right k t.2
    have h2 : (t.1 + 1) * k = t * k + k := by ring
    have := a.2
    dsimp only
    omega
  let e : Fin k × Fin levels → Fin n := fun p => ⟨cur + p.2 * k + p.1, hlt p⟩
  have he : Function.Injective e := by
    rintro ⟨a, t⟩ ⟨b, s⟩ h
    have h' : t.1 * k + a.1 = s.1 * k + b.1 := by
      have := congrArg Fin.val h
      simp only [e] at this
      omega
    have hk : 0 < k := by have := a.2; omega
    have h1 : a.1 = b.1 := by
      have := congrArg (· % k) h'
      simpa [Nat.add_mod, Nat.mod_eq_of_lt a.2, Nat.mod_eq_of_lt b.2] using this
    have h2 : t.1 = s.1 := by
      have : t.1 * k = s.1 * k := by omega
      exact Nat.eq_of_mul_eq_mul_right hk this
    ext
    · exact h1
    · exact h2
  have hemb := fun i j => (buildShared_emb T Dl k rank levels cur id lam hl i j).1
  have hpick := rank_pick e he (toM n n (buildShared T Dl k rank levels cur id lam).1.Semb) (by
    intro i j hij
    have key : ∀ i : Fin n, cur ≤ i.1 → i.1 < cur + levels * k → i ∈ Set.range e := by
      intro i h1 h2
      have hk : 0 < k := by
        rcases Nat.eq_zero_or_pos k with h | h
        · subst h; omega
        · exact h
      have h3 : (i.1 - cur) / k < levels := by
        rw [Nat.div_lt_iff_lt_mul hk]; omega
      refine ⟨(⟨(i.1 - cur) % k, Nat.mod_lt _ hk⟩, ⟨(i.1 - cur) / k, h3⟩), ?_⟩
      apply Fin.ext
      simp only [e]
      have := Nat.div_add_mod (i.1 - cur) k
      rw [Nat.mul_comm] at this
      omega
    refine embed_outside T Dl k rank levels cur id lam hT hl i j ?_
    rcases hij with h | h
    · left
      by_contra hc
      push Not at hc
      exact h (key i hc.1 hc.2)
    · right
      by_contra hc
      push Not at hc
      exact h (key j hc.1 hc.2))
  rw [hpick]
  have hsub : (toM n n (buildShared T Dl k rank levels cur id lam).1.Semb).submatrix e e
      = blockDiagonal fun _ : Fin levels => toM k k (buildShared T Dl k rank levels cur id lam).1.SJ := by
    ext ⟨a, t⟩ ⟨b, s⟩
    simp only [submatrix_apply, toM, of_apply, e, blockDiagonal_apply]
    rw [hemb]
    by_cases hts : t = s
    · subst hts
      rw [if_pos rfl, Finset.sum_eq_single t.1]
      · rw [coo_shift_in]; rfl
      · intro u _ hu
        have ha := a.2
        apply coo_shift_out hT
        left
        rcases Nat.lt_or_gt_of_ne hu with h | h
        · right
          have : (u + 1) * k ≤ t * k := Nat.mul_le_mul_right k h
          have : (u + 1) * k = u * k + k := by ring
          omega
        · left
          have : (t.1 + 1) * k ≤ u * k := Nat.mul_le_mul_right k h
          have : (t.1 + 1) * k = t.1 * k + k := by ring
          omega
      · intro h
        exact absurd (Finset.mem_range.2 t.2) h
    · rw [if_neg hts]
      have hts' : t.1 ≠ s.1 := fun h => hts (Fin.ext h)
      refine Finset.sum_eq_zero fun u _ => ?_
      have ha := a.2
      have hb := b.2
      apply coo_shift_out hT
      have aux : ∀ (x : ℕ) (c : ℕ), c < k → x ≠ u → cur + x * k + c < cur + u * k ∨ cur + u * k + k ≤ cur + x * k + c := by
        intro x c hc hx
        rcases Nat.lt_or_gt_of_ne hx with h | h
        · left
          have : (x + 1) * k ≤ u * k := Nat.mul_le_mul_right k h
          have : (x + 1) * k = x * k + k := by ring
          omega
        · right
          have : (u + 1) * k ≤ x * k := Nat.mul_le_mul_right k h
          have : (u + 1) * k = u * k + k := by ring
          omega
      by_cases h : t.1 = u
      · right
        exact aux s.1 b.1 hb fun h' => hts' (h.trans h'.symm)
      · left
        exact aux t.1 a.1 ha h
  rw [hsub, rank_copies, ← hr]
  rfl

/-- Two repeats of a two by two penalty of rank one, behind one other coefficient: the rank recorded is two. -/
example : (buildShared [(0, 0, 1)] [(0, 0, 1)] 2 1 2 1 none 1).1.rank
      = (toM 5 5 (buildShared [(0, 0, 1)] [(0, 0, 1)] 2 1 2 1 none 1).1.Semb).rank ∧
    (buildShared [(0, 0, 1)] [(0, 0, 1)] 2 1 2 1 none 1).1.rank = 2 := by
  refine ⟨embed_rank _ _ 2 1 2 1 5 none 1 ?_ (by norm_num) (by norm_num) ?_, rfl⟩
  · intro t ht
    simp only [List.mem_singleton] at ht
    subst ht
    norm_num
  · have : toM 2 2 (buildShared [(0, 0, 1)] [(0, 0, 1)] 2 1 2 1 none 1).1.SJ
        = vecMulVec ![1, 0] ![1, 0] := by
      ext i j
      fin_cases i <;> fin_cases j <;> simp [toM, buildShared, embedSj, coo, vecMulVec_apply]
    rw [this]
    refine le_antisymm ?_ (rank_vecMulVec_le _ _)
    have h := rank_submatrix_le (vecMulVec ![(1 : ℝ), 0] ![1, 0]) (fun _ : Fin 1 => 0) (fun _ : Fin 1 => 0)
    have h1 : (vecMulVec ![(1 : ℝ), 0] ![1, 0]).submatrix (fun _ : Fin 1 => 0) (fun _ : Fin 1 => 0) = 1 := by
      ext i j
      fin_cases i; fin_cases j
      simp [vecMulVec_apply]
    rwa [h1, rank_one, Fintype.card_fin] at h

end Verif.Pen
