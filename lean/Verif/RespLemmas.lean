import Verif.RespModel
import Verif.Bspline

/-!
# Impulse response terms: lemmas (property C106)
-/

namespace Verif.Resp

open Verif Finset

theorem ir_knots (minc maxc : ℝ) (nk deg : ℕ) (hk : deg < nk) :
    Bspline.Even (Bspline.linspace minc maxc (nk - deg + 1 + 2 * deg)) ((maxc - minc) / (((nk - deg : ℕ) : ℝ) + 2 * deg)) := by
  intro k
  unfold Bspline.linspace
  push_cast
  have hn : (0 : ℝ) < ((nk - deg : ℕ) : ℝ) := by exact_mod_cast Nat.sub_pos_of_lt hk
  rw [show ((nk - deg : ℕ) : ℝ) + 1 + 2 * deg - 1 = ((nk - deg : ℕ) : ℝ) + 2 * deg from by ring]
  ring

/-! ### Rows of a series -/

theorem marg_shift (m : Marg) (hm : m.conv = true) (s : Ser) (v onset i : ℕ) (hi : i < s.len) (j : ℕ) (hn : ∀ a < s.len, s.cov v a ≠ none) :
    margEntry m s v onset i j = if onset ≤ i then some (Bspline.irBasis m.minc m.maxc m.nk m.deg ((s.cov v (i - onset)).getD 0) j) else some 0 := by
  unfold margEntry
  rw [if_pos hm, if_neg (by rintro ⟨a, h1, h2⟩; exact hn a h1 h2)]
  unfold Bspline.irMatrix
  rw [Bspline.convolve_shift _ _ _ _ hi]
  split_ifs <;> rfl

theorem tensor_congr (s : Ser) (o i o' i' : ℕ) (ms : List Marg) : ∀ (v : ℕ) (r r' : ℕ → Option ℝ), (∀ c, r c = r' c) →
    (∀ k (hk : k < ms.length) (j : ℕ), margEntry ms[k] s (v + k) o i j = margEntry ms[k] s (v + k) o' i' j) → ∀ c, tensor s o i ms v r c = tensor s o' i' ms v r' c := by
  induction ms with
  | nil => intro v r r' hr _ c; exact hr c
  | cons m ms ih =>
    intro v r r' hr hm c
    unfold tensor
    refine ih (v + 1) _ _ (fun c => ?_) (fun k hk j => ?_) c
    · have h0 := hm 0 (by simp) (c % m.nk)
      rw [hr]
      exact congrArg _ h0
    · have := hm (k + 1) (by simp; omega) j
      rw [show v + (k + 1) = v + 1 + k from by ring] at this
      exact this

theorem tensor_zero (s : Ser) (o i : ℕ) (ms : List Marg) : ∀ (v : ℕ) (r : ℕ → Option ℝ), (∀ c, r c = some 0) →
    (∀ k (hk : k < ms.length) (j : ℕ), margEntry ms[k] s (v + k) o i j ≠ none) → ∀ c, tensor s o i ms v r c = some 0 := by
  induction ms with
  | nil => intro v r hr _ c; exact hr c
  | cons m ms ih =>
    intro v r hr hm c
    unfold tensor
    refine ih (v + 1) _ (fun c => ?_) (fun k hk j => ?_) c
    · rw [hr]
      obtain ⟨x, hx⟩ := Option.ne_none_iff_exists'.1 (hm 0 (by simp) (c % m.nk))
      rw [show margEntry m s v o i (c % m.nk) = some x from hx]
      simp [mulN]
    · have := hm (k + 1) (by simp; omega) j
      rw [show v + (k + 1) = v + 1 + k from by ring] at this
      exact this

/-! ### The matrix -/

theorem keep_zero (x : ℝ) : keep 0 (some x) = x := by
  show (if |x| > 0 then x else 0) = x
  split_ifs with h
  · rfl
  · exact (abs_eq_zero.1 (le_antisymm (not_lt.1 h) (abs_nonneg x))).symm

theorem flatten_get {α : Type} (pre : List (List α)) (b : List α) (post : List (List α)) (i : ℕ) (hi : i < b.length) :
    (pre ++ b :: post).flatten[(pre.map List.length).sum + i]? = b[i]? := by
  rw [List.flatten_append, List.flatten_cons, List.getElem?_append_right (by rw [List.length_flatten]; omega), List.length_flatten, Nat.add_sub_cancel_left,
    List.getElem?_append_left hi]

theorem serRows_length (m : Marg) (ms : List Marg) (levels : Option ℕ) (s : Ser) (o : ℕ) (b : List (ℕ → Option ℝ)) (h : serRows m ms levels s o = some b) : b.length = s.len := by
  unfold serRows at h
  cases levels with
  | none => cases h; simp
  | some l =>
    dsimp only at h
    split_ifs at h
    cases h; simp

theorem mapM_split {α β : Type} (f : α → Option β) (l : List α) (bs : List β) (h : l.mapM f = some bs) : bs.length = l.length ∧ ∀ k (h1 : k < l.length) (h2 : k < bs.length), f l[k] = some bs[k] := by
  induction l generalizing bs with
  | nil => cases h; exact ⟨rfl, fun k h1 => absurd h1 (by simp)⟩
  | cons x xs ih =>
    rw [List.mapM_cons] at h
    cases hx : f x with
    | none => rw [hx] at h; cases h
    | some y =>
      cases hxs : xs.mapM f with
      | none => rw [hx, hxs] at h; cases h
      | some ys =>
        rw [hx, hxs] at h
        cases h
        obtain ⟨i1, i2⟩ := ih ys hxs
        refine ⟨by simp [i1], fun k h1 h2 => ?_⟩
        cases k with
        | zero => exact hx
        | succ k => exact i2 k (by simpa using h1) (by simpa using h2)

/-- The rows of a series are where the rows of the series are in the data, whichever number of cores is used, and depend only on this series and its event. -/
theorem build_rows (m : Marg) (ms : List Marg) (levels : Option ℕ) (tol : ℝ) (n : ℕ) (sers : List Ser) (onsets : List ℕ) (X : List (ℕ → ℝ)) (hX : build m ms levels tol n sers onsets = some X)
    (k : ℕ) (hk : k < sers.length) (ho : k < onsets.length) (i : ℕ) (hi : i < sers[k].len) :
    ∃ b r, serRows m ms levels sers[k] onsets[k] = some b ∧ b[i]? = some r ∧ X[((sers.take k).map Ser.len).sum + i]? = some fun c => keep tol (r c) := by
  unfold build at hX
  cases hb : (sers.zip onsets).mapM fun p => serRows m ms levels p.1 p.2 with
  | none => rw [hb] at hX; cases hX
  | some blocks =>
    rw [hb] at hX
    dsimp only at hX
    split_ifs at hX with hl
    cases hX
    obtain ⟨h1, h2⟩ := mapM_split _ _ _ hb
    have hkz : k < (sers.zip onsets).length := by rw [List.length_zip]; omega
    have hkb : k < blocks.length := by omega
    have h3 := h2 k hkz hkb
    rw [List.getElem_zip] at h3
    have hlen : blocks[k].length = sers[k].len := serRows_length _ _ _ _ _ _ h3
    refine ⟨blocks[k], blocks[k][i]'(by omega), h3, List.getElem?_eq_getElem _, ?_⟩
    have hsum : ((blocks.take k).map List.length).sum = ((sers.take k).map Ser.len).sum := by
      congr 1
      refine List.ext_getElem (by simp; omega) fun q q1 q2 => ?_
      rw [List.getElem_map, List.getElem_map, List.getElem_take, List.getElem_take]
      have q3 : q < k := by simp at q1; omega
      have q4 := h2 q (by omega) (by omega)
      rw [List.getElem_zip] at q4
      exact serRows_length _ _ _ _ _ _ q4
    have hsplit : blocks = blocks.take k ++ blocks[k] :: blocks.drop (k + 1) := by
      rw [List.getElem_cons_drop, List.take_append_drop]
    have hget := flatten_get (blocks.take k) blocks[k] (blocks.drop (k + 1)) i (by omega)
    rw [← hsplit, hsum] at hget
    rw [List.getElem?_map, hget, List.getElem?_eq_getElem (by omega)]
    rfl

end Verif.Resp
