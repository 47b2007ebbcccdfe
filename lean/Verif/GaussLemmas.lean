import Verif.GaussModel
import Verif.Par
import Verif.Lam
import Verif.Step
import Mathlib.Data.Real.StarOrdered
import Mathlib.Tactic.Linarith
import Mathlib.Tactic.Ring

/-!
# Lemmas about fits of strictly additive models
-/

namespace Verif.Gauss

open Verif Verif.Lam Matrix

variable {α : Type} {p m : ℕ}

/-! ### Data -/

/-- Rows with a response. -/
def rowsOf (fs : List (File α)) : List (α × ℝ) := fs.flatten.filterMap fun r => r.2.map fun y => (r.1, y)

/-- Row of the model matrix times coefficients. -/
noncomputable def lin (build : α → ℕ → ℝ) (b : Fin p → ℝ) (c : α) : ℝ := ∑ j : Fin p, build c j * b j

theorem covs_rows (fs : List (File α)) : (fs.map covs).flatten = (rowsOf fs).map (·.1) := by
  unfold rowsOf
  induction fs with
  | nil => rfl
  | cons f fs ih =>
    rw [List.map_cons, List.flatten_cons, ih, List.flatten_cons, List.filterMap_append, List.map_append]
    congr 1
    unfold covs
    rw [List.map_filterMap]
    congr 1
    funext r
    cases r.2 <;> rfl

theorem ys_rows (fs : List (File α)) : (fs.map ys).flatten = (rowsOf fs).map (·.2) := by
  unfold rowsOf
  induction fs with
  | nil => rfl
  | cons f fs ih =>
    rw [List.map_cons, List.flatten_cons, ih, List.flatten_cons, List.filterMap_append, List.map_append]
    congr 1
    unfold ys
    rw [List.map_filterMap]
    congr 1
    funext r
    cases r.2 <;> rfl

theorem covs_length (f : File α) : (covs f).length = (ys f).length := by
  have h1 := covs_rows [f]
  have h2 := ys_rows [f]
  simp only [List.map_cons, List.map_nil, List.flatten_cons, List.flatten_nil, List.append_nil] at h1 h2
  rw [h1, h2, List.length_map, List.length_map]

theorem etaRow_lin (build : α → ℕ → ℝ) (b : Fin p → ℝ) (c : α) : Par.etaRow build p (ofFin b) c = lin build b c := by
  unfold Par.etaRow lin
  rw [Finset.sum_range]
  refine Finset.sum_congr rfl fun j _ => ?_
  unfold ofFin
  rw [dif_pos j.2]

theorem dat_ext {D E : Dat p} (h1 : D.XX = E.XX) (h2 : D.Xy = E.Xy) (h3 : D.y = E.y) (h4 : D.eta = E.eta) : D = E := by
  cases D; cases E; simp only at h1 h2 h3 h4; subst h1 h2 h3 h4; rfl

/-- The data of all rows with a response. -/
noncomputable def whole (p : ℕ) (build : α → ℕ → ℝ) (R : List (α × ℝ)) : Dat p where
  XX := fun i j => (R.map fun r => build r.1 i * build r.1 j).sum
  Xy := fun i => (R.map fun r => build r.1 i * r.2).sum
  y := R.map (·.2)
  eta := fun b => some (R.map fun r => lin build b r.1)

theorem crossXX_rows (build : α → ℕ → ℝ) (R : List (α × ℝ)) (i j : ℕ) :
    Par.crossXX ((R.map (·.1)).map build) i j = (R.map fun r => build r.1 i * build r.1 j).sum := by
  unfold Par.crossXX
  rw [List.map_map, List.map_map]
  rfl

theorem crossXy_rows (build : α → ℕ → ℝ) (R : List (α × ℝ)) (i : ℕ) :
    Par.crossXy ((R.map (·.1)).map build) (R.map (·.2)) i = (R.map fun r => build r.1 i * r.2).sum := by
  unfold Par.crossXy
  rw [List.map_map, List.zipWith_map, List.zipWith_self]
  rfl

theorem eta_rows (build : α → ℕ → ℝ) (R : List (α × ℝ)) (b : Fin p → ℝ) :
    (R.map (·.1)).map (Par.etaRow build p (ofFin b)) = R.map fun r => lin build b r.1 := by
  rw [List.map_map]
  refine List.map_congr_left fun r _ => ?_
  exact etaRow_lin build b r.1

theorem setup_memory (build : α → ℕ → ℝ) (nc : ℕ) (fs : List (File α)) :
    setup .memory build nc fs = some (whole p build (rowsOf fs)) := by
  simp only [setup, Option.some.injEq]
  rw [covs_rows, ys_rows]
  refine dat_ext ?_ ?_ rfl ?_
  · funext i j; exact crossXX_rows _ _ _ _
  · funext i; exact crossXy_rows _ _ _
  · funext b; simp only; rw [eta_rows]; rfl

theorem mapM_eq_some {β γ : Type} (f : β → Option γ) (l : List β) (r : List γ) (h : l.mapM f = some r) : ∀ a ∈ l, f a ≠ none := by
  intro a ha hn
  rw [Par.mapM_none f l ⟨a, ha, hn⟩] at h
  cases h

theorem map_flatten_length (build : α → ℕ → ℝ) (fs : List (File α)) (i j : ℕ) :
    (fs.map fun f => Par.crossXX ((covs f).map build) i j).sum = Par.crossXX (((fs.map covs).flatten).map build) i j := by
  rw [Par.crossXX_flatten, List.map_map]
  rfl

theorem setup_files (build : α → ℕ → ℝ) (nc : ℕ) (fs : List (File α)) (D : Dat p) (h : setup .files build nc fs = some D) :
    D = whole p build (rowsOf fs) := by
  simp only [setup, Option.bind_eq_bind, Option.bind_eq_some_iff] at h
  obtain ⟨parts, hp, XX, hX, Xy, hy, hD⟩ := h
  have hne : ∀ f ∈ fs, ¬(nc = 0 ∨ covs f = []) := by
    intro f hf hc
    apply mapM_eq_some _ _ _ hp f hf
    rw [Par.readXTX_eq build nc _ _ (covs_length f), if_pos hc]
  have hmap := Par.mapM_some (fun f => Par.readXTX build nc (covs f) (ys f))
    (fun f => (Par.crossXX ((covs f).map build), Par.crossXy ((covs f).map build) (ys f), (ys f).length)) fs
    (fun f hf => by rw [Par.readXTX_eq build nc _ _ (covs_length f), if_neg (hne f hf)])
  rw [hmap, Option.some.injEq] at hp
  subst hp
  have hfs : fs ≠ [] := by rintro rfl; simp [Par.reduce] at hX
  rw [List.map_map, Par.reduce_addM _ (by simpa using hfs), Option.some.injEq] at hX
  rw [List.map_map, Par.reduce_addV _ (by simpa using hfs), Option.some.injEq] at hy
  simp only [Option.pure_def, Option.some.injEq] at hD
  subst hX hy
  rw [← hD]
  refine dat_ext ?_ ?_ (ys_rows fs) ?_
  · funext i j
    simp only [whole]
    rw [← crossXX_rows, ← covs_rows, ← map_flatten_length, List.map_map]
    rfl
  · funext i
    simp only [whole]
    rw [← crossXy_rows, ← covs_rows, ← ys_rows, Par.crossXy_flatten build _ _ (by
      rw [List.forall₂_map_left_iff, List.forall₂_map_right_iff]
      exact List.forall₂_same.2 fun f _ => covs_length f), List.map_map, List.zipWith_map, List.zipWith_self]
    rfl
  · funext b
    simp only [whole]
    rw [Par.mapM_some _ (fun f => (covs f).map (Par.etaRow build p (ofFin b))) fs (fun f hf => by
      have := hne f hf
      push Not at this
      exact Par.readEta_eq build p nc _ _ (Nat.pos_of_ne_zero this.1) this.2)]
    simp only [Option.map_some, Option.some.injEq]
    rw [← eta_rows, ← covs_rows, List.map_flatten, List.map_map]
    rfl

theorem exists_nil {β : Type} (ps : List (List β)) (h : ps.flatten.length < ps.length) : ∃ q ∈ ps, q = [] := by
  by_contra hc
  push Not at hc
  have : ps.length ≤ ps.flatten.length := by
    clear h
    induction ps with
    | nil => simp
    | cons q ps ih =>
      have h1 := List.length_pos_iff.2 (hc q (by simp))
      have h2 := ih fun r hr => hc r (by simp [hr])
      rw [List.flatten_cons, List.length_append, List.length_cons]
      omega
  omega

theorem keepXTX_some (build : α → ℕ → ℝ) (files nc : ℕ) (cov : List α) (y : List ℝ) (hy : cov.length = y.length)
    (h : Par.keepXTX build files nc cov y ≠ none) : 0 < files ∧ 0 < nc ∧ files ≤ cov.length := by
  have hf : 0 < files := by
    by_contra hf
    have : files = 0 := by omega
    exact h (by simp [Par.keepXTX, Par.arraySplit, this])
  obtain ⟨ps, hp1, hp2, hp3, hp4⟩ := Par.split_correct cov files hf
  obtain ⟨qs, hq1, hq2, hq3, -⟩ := Par.split_correct y files hf
  have hlen := Par.split_lengths cov y hy _ ps qs hp1 hq1
  have key : ∀ q ∈ ps, ¬(nc = 0 ∨ q = []) := by
    intro q hq hc
    obtain ⟨i, hi, rfl⟩ := List.getElem_of_mem hq
    have hi' : i < qs.length := by omega
    apply h
    have hz : (ps[i], qs[i]) ∈ List.zip ps qs := by
      have hiz : i < (List.zip ps qs).length := by simp [hi, hi']
      rw [show (ps[i], qs[i]) = (List.zip ps qs)[i] by simp]
      exact List.getElem_mem _
    have hl : ps[i].length = qs[i].length := hlen.get hi hi'
    have hnone := Par.mapM_none (fun p : List α × List ℝ => Par.readXTX build nc p.1 p.2) (List.zip ps qs)
      ⟨_, hz, by rw [Par.readXTX_eq build nc _ _ hl, if_pos hc]⟩
    simp only [Par.keepXTX, hp1, hq1, Option.bind_eq_bind, Option.bind_some, hnone, Option.bind_none]
  refine ⟨hf, ?_, ?_⟩
  · have hps : ps ≠ [] := by rintro rfl; simp at hp2; omega
    obtain ⟨q, hq⟩ := List.exists_mem_of_ne_nil ps hps
    have := key q hq
    push Not at this
    omega
  · by_contra hc
    obtain ⟨q, hq, hn⟩ := exists_nil ps (by rw [hp3, hp2]; omega)
    exact key q hq (.inr hn)

theorem setup_kept (build : α → ℕ → ℝ) (nc : ℕ) (fs : List (File α)) (D : Dat p) (h : setup .kept build nc fs = some D) :
    D = whole p build (rowsOf fs) := by
  simp only [setup, Option.bind_eq_bind, Option.bind_eq_some_iff, Option.pure_def, Option.some.injEq] at h
  rw [covs_rows, ys_rows] at h
  obtain ⟨r, hr, hD⟩ := h
  have hl : ((rowsOf fs).map (·.1)).length = ((rowsOf fs).map (·.2)).length := by simp
  obtain ⟨h1, h2, h3⟩ := keepXTX_some build fs.length nc _ _ hl (by rw [hr]; simp)
  rw [Par.keepXTX_eq build fs.length nc _ _ hl h1 h2 h3, Option.some.injEq] at hr
  subst hr
  rw [← hD]
  refine dat_ext ?_ ?_ rfl ?_
  · funext i j; exact crossXX_rows _ _ _ _
  · funext i; exact crossXy_rows _ _ _
  · funext b
    simp only [whole]
    rw [Par.keepEta_eq build p fs.length nc _ _ h1 h2 h3, eta_rows]

/-- Wherever the data are, once they have been read the fit works with all rows that have a response. -/
theorem setup_whole (src : Src) (build : α → ℕ → ℝ) (nc : ℕ) (fs : List (File α)) (D : Dat p) (h : setup src build nc fs = some D) :
    D = whole p build (rowsOf fs) := by
  cases src with
  | memory => rw [setup_memory, Option.some.injEq] at h; exact h.symm
  | files => exact setup_files build nc fs D h
  | kept => exact setup_kept build nc fs D h

/-! ### Least squares -/

/-- Residual sum of squares. -/
noncomputable def rss (build : α → ℕ → ℝ) (R : List (α × ℝ)) (b : Fin p → ℝ) : ℝ := (R.map fun r => (r.2 - lin build b r.1) ^ 2).sum

theorem deviance_whole (build : α → ℕ → ℝ) (R : List (α × ℝ)) (b : Fin p → ℝ) :
    deviance (whole p build R).y ((whole p build R).eta b) = .fin (rss build R b) := by
  simp only [deviance, whole, rss, List.zipWith_map, List.zipWith_self]

theorem lin_sub (build : α → ℕ → ℝ) (b c : Fin p → ℝ) (a : α) : lin build (c - b) a = lin build c a - lin build b a := by
  unfold lin
  rw [← Finset.sum_sub_distrib]
  exact Finset.sum_congr rfl fun j _ => by rw [Pi.sub_apply]; ring

theorem list_sum_comm {β : Type} (R : List β) (f : β → Fin p → ℝ) : (∑ j, (R.map fun r => f r j).sum) = (R.map fun r => ∑ j, f r j).sum := by
  induction R with
  | nil => simp
  | cons r R ih => simp only [List.map_cons, List.sum_cons]; rw [Finset.sum_add_distrib, ih]

theorem list_sum_mul {β : Type} (R : List β) (f : β → ℝ) (c : ℝ) : (R.map f).sum * c = (R.map fun r => f r * c).sum := by
  induction R with
  | nil => simp
  | cons r R ih => simp only [List.map_cons, List.sum_cons]; rw [add_mul, ih]

theorem XX_quad (build : α → ℕ → ℝ) (R : List (α × ℝ)) (b c : Fin p → ℝ) :
    c ⬝ᵥ (whole p build R).XX.mulVec b = (R.map fun r => lin build b r.1 * lin build c r.1).sum := by
  simp only [dotProduct, mulVec, whole]
  have h1 : ∀ i : Fin p, (∑ j : Fin p, (R.map fun r => build r.1 i * build r.1 j).sum * b j) = (R.map fun r => build r.1 i * lin build b r.1).sum := by
    intro i
    simp only [list_sum_mul]
    rw [list_sum_comm R fun r j => build r.1 i * build r.1 j * b j]
    congr 1
    refine List.map_congr_left fun r _ => ?_
    unfold lin
    rw [Finset.mul_sum]
    exact Finset.sum_congr rfl fun j _ => by ring
  simp only [h1]
  have h2 : ∀ i : Fin p, c i * (R.map fun r => build r.1 i * lin build b r.1).sum = (R.map fun r => build r.1 i * lin build b r.1 * c i).sum := by
    intro i
    rw [mul_comm, list_sum_mul]
  simp only [h2]
  rw [list_sum_comm R fun r i => build r.1 i * lin build b r.1 * c i]
  congr 1
  refine List.map_congr_left fun r _ => ?_
  show _ = lin build b r.1 * ∑ j : Fin p, build r.1 j * c j
  rw [Finset.mul_sum]
  exact Finset.sum_congr rfl fun j _ => by ring

theorem Xy_dot (build : α → ℕ → ℝ) (R : List (α × ℝ)) (c : Fin p → ℝ) :
    c ⬝ᵥ (whole p build R).Xy = (R.map fun r => r.2 * lin build c r.1).sum := by
  simp only [dotProduct, whole]
  have h2 : ∀ i : Fin p, c i * (R.map fun r => build r.1 i * r.2).sum = (R.map fun r => build r.1 i * r.2 * c i).sum := by
    intro i
    rw [mul_comm, list_sum_mul]
  simp only [h2]
  rw [list_sum_comm R fun r i => build r.1 i * r.2 * c i]
  congr 1
  refine List.map_congr_left fun r _ => ?_
  show _ = r.2 * ∑ j : Fin p, build r.1 j * c j
  rw [Finset.mul_sum]
  exact Finset.sum_congr rfl fun j _ => by ring

theorem rss_expand (build : α → ℕ → ℝ) (R : List (α × ℝ)) (b c : Fin p → ℝ) :
    rss build R c = rss build R b - 2 * (R.map fun r => r.2 * lin build (c - b) r.1).sum
      + 2 * (R.map fun r => lin build b r.1 * lin build (c - b) r.1).sum + (R.map fun r => lin build (c - b) r.1 * lin build (c - b) r.1).sum := by
  unfold rss
  induction R with
  | nil => simp
  | cons r R ih =>
    simp only [List.map_cons, List.sum_cons]
    rw [ih, lin_sub]
    ring

theorem XX_psd (build : α → ℕ → ℝ) (R : List (α × ℝ)) : (whole p build R).XX.PosSemidef := by
  refine PosSemidef.of_dotProduct_mulVec_nonneg ?_ fun x => ?_
  · ext i j
    rw [conjTranspose_apply, star_trivial]
    show (R.map fun r => build r.1 j * build r.1 i).sum = (R.map fun r => build r.1 i * build r.1 j).sum
    congr 1
    exact List.map_congr_left fun r _ => mul_comm _ _
  · rw [star_trivial, XX_quad]
    apply List.sum_nonneg
    intro v hv
    obtain ⟨r, -, rfl⟩ := List.mem_map.1 hv
    exact mul_self_nonneg _

theorem sEmb_quad (S : Fin m → Matrix (Fin p) (Fin p) ℝ) (lam : Fin m → ℝ) (b : Fin p → ℝ) :
    quad (sEmb S lam) b = ∑ i, lam i * quad (S i) b := by
  unfold quad sEmb
  rw [sum_mulVec, dotProduct_sum]
  refine Finset.sum_congr rfl fun i _ => ?_
  rw [smul_mulVec, dotProduct_smul, smul_eq_mul]

theorem sEmb_psd (S : Fin m → Matrix (Fin p) (Fin p) ℝ) (hS : ∀ i, (S i).PosSemidef) (lam : Fin m → ℝ) (hl : ∀ i, 0 < lam i) :
    (sEmb S lam).PosSemidef := by
  unfold sEmb
  exact posSemidef_sum _ fun i _ => (hS i).smul (hl i).le

/-- Coefficients are determined by the predictions together with the penalties. -/
def Ident (build : α → ℕ → ℝ) (R : List (α × ℝ)) (S : Fin m → Matrix (Fin p) (Fin p) ℝ) : Prop :=
  ∀ b : Fin p → ℝ, (∀ r ∈ R, ∑ j : Fin p, build r.1 j * b j = 0) → (∀ i, b ⬝ᵥ (S i).mulVec b = 0) → b = 0

theorem pd (build : α → ℕ → ℝ) (R : List (α × ℝ)) (S : Fin m → Matrix (Fin p) (Fin p) ℝ) (hS : ∀ i, (S i).PosSemidef)
    (hI : Ident build R S) (lam : Fin m → ℝ) (hl : ∀ i, 0 < lam i) : ((whole p build R).XX + sEmb S lam).PosDef := by
  have h1 := XX_psd (p := p) build R
  have h2 := sEmb_psd S hS lam hl
  refine PosDef.of_dotProduct_mulVec_pos (h1.add h2).1 fun x hx => ?_
  have hn1 := h1.dotProduct_mulVec_nonneg x
  have hn2 := h2.dotProduct_mulVec_nonneg x
  rw [add_mulVec, dotProduct_add]
  rw [star_trivial] at *
  rcases hn1.lt_or_eq with h | h
  · linarith
  rcases hn2.lt_or_eq with h' | h'
  · linarith
  refine absurd (hI x (fun r hr => ?_) fun i => ?_) hx
  · rw [XX_quad] at h
    by_contra hc
    have : 0 < (R.map fun r => lin build x r.1 * lin build x r.1).sum := by
      have hle : lin build x r.1 * lin build x r.1 ≤ (R.map fun r => lin build x r.1 * lin build x r.1).sum := by
        apply List.single_le_sum
        · intro v hv
          obtain ⟨r, -, rfl⟩ := List.mem_map.1 hv
          exact mul_self_nonneg _
        · exact List.mem_map.2 ⟨r, hr, rfl⟩
      have : lin build x r.1 ≠ 0 := hc
      have := mul_self_pos.2 this
      linarith
    linarith
  · have hq := sEmb_quad S lam x
    unfold quad at hq
    rw [← h'] at hq
    have hnn : ∀ i ∈ Finset.univ, 0 ≤ lam i * (x ⬝ᵥ (S i).mulVec x) := by
      intro i _
      have := (hS i).dotProduct_mulVec_nonneg x
      rw [star_trivial] at this
      exact mul_nonneg (hl i).le this
    have := (Finset.sum_eq_zero_iff_of_nonneg hnn).1 hq.symm i (Finset.mem_univ i)
    rcases mul_eq_zero.1 this with h3 | h3
    · exact absurd h3 (hl i).ne'
    · exact h3

theorem solve_eq (D : Dat p) (S : Fin m → Matrix (Fin p) (Fin p) ℝ) (lam : Fin m → ℝ) (h : (D.XX + sEmb S lam).PosDef) :
    (D.XX + sEmb S lam).mulVec (updateCoef D S lam) = D.Xy := by
  unfold updateCoef solveXX
  rw [if_pos h]
  simp only
  rw [mulVec_mulVec, mul_nonsing_inv _ ((isUnit_iff_isUnit_det _).1 h.isUnit), one_mulVec]

theorem symm_dot (S : Matrix (Fin p) (Fin p) ℝ) (hS : S.PosSemidef) (b c : Fin p → ℝ) : b ⬝ᵥ S.mulVec c = c ⬝ᵥ S.mulVec b := by
  have : Sᵀ = S := by have := hS.1; rwa [IsHermitian, conjTranspose_eq_transpose_of_trivial] at this
  rw [dotProduct_mulVec, ← mulVec_transpose, this, dotProduct_comm]

/-- Completing the square around the solution. -/
theorem complete (build : α → ℕ → ℝ) (R : List (α × ℝ)) (S : Fin m → Matrix (Fin p) (Fin p) ℝ) (lam : Fin m → ℝ)
    (hSp : (sEmb S lam).PosSemidef) (h : ((whole p build R).XX + sEmb S lam).PosDef) (c : Fin p → ℝ) :
    rss build R c + quad (sEmb S lam) c
      = rss build R (updateCoef (whole p build R) S lam) + quad (sEmb S lam) (updateCoef (whole p build R) S lam)
        + quad ((whole p build R).XX + sEmb S lam) (c - updateCoef (whole p build R) S lam) := by
  have hs := solve_eq _ S lam h
  obtain ⟨b, hb⟩ : ∃ b, b = updateCoef (whole p build R) S lam := ⟨_, rfl⟩
  rw [← hb] at hs ⊢
  rw [rss_expand build R b c, ← Xy_dot, ← XX_quad, ← XX_quad, ← hs]
  have hd : c = b + (c - b) := by abel
  obtain ⟨d, hdd⟩ : ∃ d, d = c - b := ⟨_, rfl⟩
  rw [← hdd] at hd ⊢
  have hq : quad (sEmb S lam) c = quad (sEmb S lam) b + 2 * (d ⬝ᵥ (sEmb S lam).mulVec b) + quad (sEmb S lam) d := by
    rw [hd]
    unfold quad
    rw [mulVec_add, add_dotProduct, dotProduct_add, dotProduct_add, symm_dot _ hSp b d]
    ring
  rw [hq]
  unfold quad
  rw [add_mulVec, add_mulVec, dotProduct_add, dotProduct_add]
  ring

end Verif.Gauss
