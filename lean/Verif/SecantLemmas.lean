import Verif.SecantModel
import Verif.CompactStore
import Mathlib.Analysis.Calculus.Deriv.Mul
import Mathlib.Analysis.Calculus.Deriv.Add

/-!
# Update vectors of quasi-Newton fits: lemmas (property C110)
-/

namespace Verif.Secant

open Matrix Verif.Compact

variable {n t f a : ℕ}

/-! ## Rows along a path -/

/-- Rows for consecutive points of a path. -/
def pathRows {B : Type} (F : Vec n → Vec n → B) : Vec n → List (Vec n) → List B
  | _, [] => []
  | x, x' :: xs => F x x' :: pathRows F x' xs

theorem pathRows_map {B C : Type} (F : Vec n → Vec n → B) (h : B → C) (x : Vec n) (xs : List (Vec n)) :
    (pathRows F x xs).map h = pathRows (fun x x' => h (F x x')) x xs := by
  induction xs generalizing x with
  | nil => rfl
  | cons y ys ih => simp [pathRows, ih]

theorem pathRows_length {B : Type} (F : Vec n → Vec n → B) (x : Vec n) (xs : List (Vec n)) : (pathRows F x xs).length = xs.length := by
  induction xs generalizing x with
  | nil => rfl
  | cons y ys ih => simp [pathRows, ih]

/-- End of a path. -/
def pathEnd : Vec n → List (Vec n) → Vec n
  | x, [] => x
  | _, x' :: xs => pathEnd x' xs

theorem pathRows_append {B : Type} (F : Vec n → Vec n → B) (x : Vec n) (xs : List (Vec n)) (y : Vec n) :
    pathRows F x (xs ++ [y]) = pathRows F x xs ++ [F (pathEnd x xs) y] := by
  induction xs generalizing x with
  | nil => rfl
  | cons z zs ih => simp [pathRows, pathEnd, ih]

theorem pathEnd_append (x : Vec n) (xs : List (Vec n)) (y : Vec n) : pathEnd x (xs ++ [y]) = y := by
  induction xs generalizing x with
  | nil => rfl
  | cons z zs ih => exact ih z

theorem walkRev_path (corr : Vec n → Upd n → Upd n) (F : Vec n → Vec n → Upd n) (hF : ∀ x x', (F x x').s = x' - x) (x : Vec n)
    (xs : List (Vec n)) :
    walkRev corr (pathEnd x xs) (pathRows F x xs).reverse = (pathRows (fun x x' => corr x' (F x x')) x xs).reverse := by
  induction xs using List.reverseRecOn with
  | nil => rfl
  | append_singleton xs y ih =>
    rw [pathRows_append, pathRows_append, pathEnd_append, List.reverse_append, List.reverse_append]
    change walkRev corr y (F (pathEnd x xs) y :: (pathRows F x xs).reverse) = corr y (F (pathEnd x xs) y) :: _
    rw [walkRev, hF, sub_sub_cancel, ih]
    rfl

theorem walkPts_path (F : Vec n → Vec n → Upd n) (hF : ∀ x x', (F x x').s = x' - x) (x : Vec n) (xs : List (Vec n)) :
    walkPts (pathEnd x xs) (pathRows F x xs).reverse = xs.reverse := by
  induction xs using List.reverseRecOn with
  | nil => rfl
  | append_singleton xs y ih =>
    rw [pathRows_append, pathEnd_append, List.reverse_append, List.reverse_append]
    change walkPts y (F (pathEnd x xs) y :: (pathRows F x xs).reverse) = y :: xs.reverse
    rw [walkPts, hF, sub_sub_cancel, ih]

/-! ## The buffer of the optimiser -/

theorem ring_aux (maxcor : ℕ) (l : List (Upd n)) (k : ℕ) (buf : List (Upd n)) (h : buf.length + l.length ≤ maxcor) :
    ((List.range' k l.length).zip l).foldl
      (fun buf p => if buf.length < maxcor then buf ++ [p.2] else buf.set (p.1 % maxcor) p.2) buf = buf ++ l := by
  induction l generalizing k buf with
  | nil => simp
  | cons u us ih =>
    rw [List.length_cons, List.range'_succ, List.zip_cons_cons, List.foldl_cons]
    have h1 : buf.length < maxcor := by simp at h; omega
    rw [if_pos h1, ih]
    · simp
    · simp at h ⊢; omega

theorem ring_eq {maxcor : ℕ} {l : List (Upd n)} (h : l.length ≤ maxcor) : ring maxcor l = l := by
  unfold ring
  rw [List.range_eq_range', ring_aux maxcor l 0 [] (by simpa using h)]
  rfl

/-! ## Newest rows -/

/-- The last `m` elements. -/
def newest {B : Type} (m : ℕ) (l : List B) : List B := l.drop (l.length - m)

theorem newest_map {B C : Type} (m : ℕ) (l : List B) (h : B → C) : (newest m l).map h = newest m (l.map h) := by
  unfold newest
  rw [List.map_drop, List.length_map]

theorem newest_length {B : Type} (m : ℕ) (l : List B) : (newest m l).length ≤ m := by
  unfold newest
  rw [List.length_drop]
  omega

theorem newest_of_le {B : Type} {m : ℕ} {l : List B} (h : l.length ≤ m) : newest m l = l := by
  unfold newest
  rw [Nat.sub_eq_zero_of_le h, List.drop_zero]

theorem newest_append_newest {B : Type} (m : ℕ) (l k : List B) : newest m (newest m l ++ k) = newest m (l ++ k) := by
  unfold newest
  rw [List.drop_append, List.drop_append, List.drop_drop, List.length_append, List.length_append, List.length_drop]
  congr 1
  · congr 1
    omega
  · congr 1
    omega

theorem newest_append_of_le {B : Type} {m : ℕ} {l k : List B} (h : k.length = m) : newest m (l ++ k) = k := by
  unfold newest
  rw [List.length_append, h, Nat.add_sub_cancel, List.drop_left]

theorem padStep_eq {maxcor : ℕ} {l : List (Upd n)} (hl : l.length ≤ maxcor) (u : Upd n) : padStep maxcor l u = newest maxcor (l ++ [u]) := by
  unfold padStep newest
  simp only
  by_cases h : (l ++ [u]).length > maxcor
  · rw [if_pos h]
    have : (l ++ [u]).length - maxcor = 1 := by simp at h ⊢; omega
    rw [this, List.drop_one]
  · rw [if_neg h, Nat.sub_eq_zero_of_le (by omega), List.drop_zero]

theorem padFold_eq {maxcor : ℕ} (new : List (Upd n)) {prev : List (Upd n)} (h : prev.length ≤ maxcor) :
    new.foldl (padStep maxcor) prev = newest maxcor (prev ++ new) := by
  induction new generalizing prev with
  | nil => rw [List.append_nil, newest_of_le h]; rfl
  | cons u us ih =>
    rw [List.foldl_cons, padStep_eq h, ih (newest_length _ _), newest_append_newest, List.append_assoc]
    rfl

theorem pad_eq {maxcor : ℕ} {prev new : List (Upd n)} (h : prev.length ≤ maxcor) (hn : new.length ≤ maxcor) :
    pad maxcor true prev new = newest maxcor (prev ++ new) := by
  unfold pad
  by_cases h1 : new.length < maxcor
  · rw [if_pos (by simpa using h1), padFold_eq new h]
  · rw [if_neg (by simpa using h1), newest_append_of_le (by omega)]

theorem mulRow_mulRow (P Q : Matrix (Fin n) (Fin n) ℝ) (h : P * Q = 1) (u : Upd n) : mulRow Q (mulRow P u) = u := by
  unfold mulRow
  simp only [Matrix.vecMul_vecMul, h, Matrix.vecMul_one]

theorem mulRow_cancel (P Q : Matrix (Fin n) (Fin n) ℝ) (h : P * Q = 1) (l : List (Upd n)) : (l.map (mulRow P)).map (mulRow Q) = l := by
  rw [List.map_map]
  conv_rhs => rw [← List.map_id l]
  exact List.map_congr_left fun u _ => mulRow_mulRow P Q h u

/-! ## Pairs that were tested -/

/-- The candidate of `cand` written out. -/
theorem cand_eq (grad next step : Vec n) (alpha : ℝ) :
    cand grad next step alpha = ⟨grad - next, alpha • step, 1 / ((grad - next) ⬝ᵥ (alpha • step))⟩ := by
  unfold cand
  have : (-1 : ℝ) • next - (-1 : ℝ) • grad = grad - next := by
    funext i
    simp
    ring
  simp only [this]

theorem updateYs_cases (maxcor : ℕ) (grad next step : Vec n) (alpha : ℝ) (st : List (Pair n)) :
    ((updateYs maxcor grad next step alpha false st) = (st, true) ∧
      ((cand grad next step alpha).y ⬝ᵥ (cand grad next step alpha).s = 0 ∨ testFails st (cand grad next step alpha))) ∨
    ((updateYs maxcor grad next step alpha false st)
        = (if (st ++ [cand grad next step alpha]).length > maxcor then (st ++ [cand grad next step alpha]).tail
          else st ++ [cand grad next step alpha], false) ∧
      (cand grad next step alpha).y ⬝ᵥ (cand grad next step alpha).s ≠ 0 ∧ ¬ testFails st (cand grad next step alpha)) := by
  by_cases h1 : (cand grad next step alpha).y ⬝ᵥ (cand grad next step alpha).s = 0
  · left
    refine ⟨?_, Or.inl h1⟩
    unfold updateYs
    simp [h1]
  · by_cases h2 : testFails st (cand grad next step alpha)
    · left
      refine ⟨?_, Or.inr h2⟩
      unfold updateYs
      simp [h2]
    · right
      exact ⟨updateYs_of rfl h1 h2, h1, h2⟩

/-- A single pair is refused exactly if the two vectors are proportional with a positive factor. -/
theorem single_fails_iff (y s : Vec n) (rho : ℝ) (h : y ⬝ᵥ s ≠ 0) :
    testFails [] (⟨y, s, rho⟩ : Pair n) ↔ 0 < y ⬝ᵥ s ∧ (y ⬝ᵥ s) ^ 2 = (y ⬝ᵥ y) * (s ⬝ᵥ s) := by
  have hyy : 0 < y ⬝ᵥ y := by
    refine lt_of_le_of_ne (dot_nonneg y) fun h0 => h ?_
    rw [dotProduct_self_eq_zero.1 h0.symm, zero_dotProduct]
  have hss : 0 < s ⬝ᵥ s := by
    refine lt_of_le_of_ne (dot_nonneg s) fun h0 => h ?_
    rw [dotProduct_self_eq_zero.1 h0.symm, dotProduct_zero]
  unfold testFails hsr1List hsr1 inv?
  rw [if_neg (by simp)]
  simp only [Option.map_eq_none_iff]
  have hdet : ∀ om : ℝ, (hMid (fun k : Fin ([] ++ [(⟨y, s, rho⟩ : Pair n)]).length => (([] ++ [(⟨y, s, rho⟩ : Pair n)]).get k).s)
      (fun k => (([] ++ [(⟨y, s, rho⟩ : Pair n)]).get k).y) (fun k => (([] ++ [(⟨y, s, rho⟩ : Pair n)]).get k).rho)
      (om • (1 : Matrix (Fin n) (Fin n) ℝ))).det = y ⬝ᵥ s - om * (s ⬝ᵥ s) := by
    intro om
    change (hMid (m := 1) (fun _ => s) (fun _ => y) (fun _ => rho) (om • (1 : Matrix (Fin n) (Fin n) ℝ))).det = _
    rw [Matrix.det_fin_one]
    unfold hMid Lmat DK Rmat cols
    simp [Matrix.mul_apply, dotProduct, Finset.mul_sum]
  rw [hdet]
  have hite : ∀ (c : Prop) [Decidable c] (X : Matrix (Fin ([] ++ [(⟨y, s, rho⟩ : Pair n)]).length) (Fin ([] ++ [(⟨y, s, rho⟩ : Pair n)]).length) ℝ),
      ((if c then some X else none) = none ↔ ¬ c) := by
    intro c _ X
    by_cases hc : c <;> simp [hc]
  rw [hite, isUnit_iff_ne_zero, not_not]
  unfold omegaNoWr
  simp only
  rcases lt_or_gt_of_ne h with hn | hp
  · rw [if_pos (div_neg_of_pos_of_neg hyy hn)]
    constructor
    · intro h0
      exfalso
      linarith
    · intro h0
      exact absurd h0.1 (not_lt.2 hn.le)
  · rw [if_neg (not_lt.2 (div_nonneg hyy.le hp.le))]
    constructor
    · intro h0
      refine ⟨hp, ?_⟩
      field_simp at h0
      linarith
    · intro h0
      field_simp
      linarith [h0.2]

/-! ## Blocks -/

theorem P1_sandwich {tc : Fin f ⊕ Fin a → Fin t} (h : Function.Injective tc) (X : Matrix (Fin f ⊕ Fin a) (Fin f ⊕ Fin a) ℝ)
    (i j : Fin f ⊕ Fin a) : (P1 tc * X * (P1 tc)ᵀ) (tc i) (tc j) = X i j := by
  have e1 : ∀ k, (P1 tc * X) (tc i) k = X i k := by
    intro k
    rw [Matrix.mul_apply, Finset.sum_eq_single i]
    · simp [P1]
    · intro b _ hb
      unfold P1
      rw [Matrix.of_apply, if_neg (fun hh => hb (h hh)), zero_mul]
    · intro hh
      exact absurd (Finset.mem_univ _) hh
  rw [Matrix.mul_apply, Finset.sum_eq_single j]
  · rw [e1, Matrix.transpose_apply]
    simp [P1]
  · intro b _ hb
    rw [Matrix.transpose_apply]
    unfold P1
    rw [Matrix.of_apply, if_neg (fun hh => hb (h hh)), mul_zero]
  · intro hh
    exact absurd (Finset.mem_univ _) hh

theorem P1_pick (tc : Fin f ⊕ Fin a → Fin t) (M : Matrix (Fin t) (Fin t) ℝ) (i j : Fin f ⊕ Fin a) :
    ((P1 tc)ᵀ * M * P1 tc) i j = M (tc i) (tc j) := by
  have e1 : ∀ k, ((P1 tc)ᵀ * M) i k = M (tc i) k := by
    intro k
    rw [Matrix.mul_apply, Finset.sum_eq_single (tc i)]
    · simp [P1]
    · intro b _ hb
      rw [Matrix.transpose_apply]
      unfold P1
      rw [Matrix.of_apply, if_neg (Ne.symm hb), zero_mul]
    · intro hh
      exact absurd (Finset.mem_univ _) hh
  rw [Matrix.mul_apply, Finset.sum_eq_single (tc j)]
  · rw [e1]
    simp [P1]
  · intro b _ hb
    unfold P1
    rw [Matrix.of_apply, if_neg (Ne.symm hb), mul_zero]
  · intro hh
    exact absurd (Finset.mem_univ _) hh

/-- The block made positive definite has the form required by C40, whatever `eigh` returns. -/
theorem makepdd_fdok {tc : Fin f ⊕ Fin a → Fin t} (h : Function.Bijective tc) {M : Matrix (Fin t) (Fin t) ℝ}
    (hM : ∀ i j, M (tc (Sum.inr i)) (tc (Sum.inr j)) = 0) (mkPsd mkPd : Bool) (thresh damp : ℝ) (e : Eig f) :
    FdOK tc (makepdd tc M mkPsd mkPd thresh damp e) := by
  refine ⟨h, fun i j => ?_, fun i j => ?_⟩
  · unfold makepdd
    rw [P1_sandwich h.1, P1_sandwich h.1]
    rfl
  · unfold makepdd
    rw [P1_sandwich h.1]
    change ((P1 tc)ᵀ * M * P1 tc) (Sum.inr i) (Sum.inr j) = 0
    rw [P1_pick, hM]

end Verif.Secant
