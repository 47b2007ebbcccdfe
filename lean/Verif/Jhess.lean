import Verif.JhessModel
import Verif.CompactInv
import Mathlib.Tactic.Ring
import Mathlib.Tactic.NormNum

/-!
# Assembly of finite difference Hessians: theorems (property C48)
-/

namespace Verif.Jhess

variable {n : ℕ} {col : ℕ → ℕ → ℝ}

theorem coo_append (a b : List Entry) (r c : ℕ) : coo (a ++ b) r c = coo a r c + coo b r c := by
  simp [coo, List.sum_append]

theorem sum_single (l : List ℕ) (hl : l.Nodup) (p : ℕ → Prop) [DecidablePred p] (i : ℕ) (hp : ∀ k, p k → k = i) (f : ℕ → ℝ) :
    (l.map fun k => if p k then f k else 0).sum = if i ∈ l ∧ p i then f i else 0 := by
  induction l with
  | nil => simp
  | cons a l ih =>
    rw [List.map_cons, List.sum_cons, ih (List.nodup_cons.1 hl).2]
    have ha := (List.nodup_cons.1 hl).1
    by_cases hpa : p a
    · have : a = i := hp a hpa
      subst this
      rw [if_pos hpa, if_neg (fun h => ha h.1), if_pos ⟨List.mem_cons_self, hpa⟩, add_zero]
    · rw [if_neg hpa, zero_add]
      by_cases h : i ∈ l ∧ p i
      · rw [if_pos h, if_pos ⟨List.mem_cons_of_mem _ h.1, h.2⟩]
      · rw [if_neg h, if_neg]
        rintro ⟨hm, hpi⟩
        rcases List.mem_cons.1 hm with rfl | hm
        · exact hpa hpi
        · exact h ⟨hm, hpi⟩

theorem kept_nodup (n : ℕ) (cc : List ℕ) : (kept n cc).Nodup := List.nodup_range.filter _

theorem mem_kept {n : ℕ} {cc : List ℕ} {i : ℕ} : i ∈ kept n cc ↔ i < n ∧ i ∉ cc := by
  simp [kept]

/-- What the entries of one column add. -/
theorem coo_addCol (cc : List ℕ) (j r c : ℕ) (hr : r < n) (hc : c < n) :
    coo (addCol n col cc j) r c = (if c = j ∧ r ∉ cc then col j r else 0) + (if r = j ∧ c ∉ cc ∧ c ≠ j then col j c else 0) := by
  unfold addCol
  rw [coo_append]
  congr 1
  · unfold coo
    rw [List.map_map]
    have : ((fun e : Entry => if e.1 = r ∧ e.2.1 = c then e.2.2 else 0) ∘ fun r => (r, j, col j r)) =
        fun k => if k = r ∧ j = c then col j k else 0 := by
      funext k
      rfl
    rw [this, sum_single _ (kept_nodup n cc) (fun k => k = r ∧ j = c) r (fun k h => h.1)]
    by_cases h : c = j ∧ r ∉ cc
    · rw [if_pos h, if_pos ⟨mem_kept.2 ⟨hr, h.2⟩, rfl, h.1.symm⟩]
    · rw [if_neg h, if_neg]
      rintro ⟨hm, -, hj⟩
      exact h ⟨hj.symm, (mem_kept.1 hm).2⟩
  · unfold coo
    rw [List.map_map]
    have : ((fun e : Entry => if e.1 = r ∧ e.2.1 = c then e.2.2 else 0) ∘ fun c => (j, c, col j c)) =
        fun k => if j = r ∧ k = c then col j k else 0 := by
      funext k
      rfl
    rw [this, sum_single _ (kept_nodup n _) (fun k => j = r ∧ k = c) c (fun k h => h.2)]
    by_cases h : r = j ∧ c ∉ cc ∧ c ≠ j
    · rw [if_pos h, if_pos ⟨mem_kept.2 ⟨hc, by simp [h.2.1, h.2.2]⟩, h.1.symm, rfl⟩]
    · rw [if_neg h, if_neg]
      rintro ⟨hm, hj, -⟩
      have := (mem_kept.1 hm).2
      simp only [List.mem_append, List.mem_singleton, not_or] at this
      exact h ⟨hj.symm, this⟩

theorem addCol_symm (cc : List ℕ) (j r c : ℕ) (hr : r < n) (hc : c < n) :
    coo (addCol n col cc j) r c = coo (addCol n col cc j) c r := by
  rw [coo_addCol _ _ _ _ hr hc, coo_addCol _ _ _ _ hc hr]
  by_cases h1 : c = j <;> by_cases h2 : r = j
  · subst h1
    subst h2
    rfl
  · simp [h1, h2]
  · simp [h1, h2]
  · simp [h1, h2]

theorem loop_symm (js : List ℕ) : ∀ (cc : List ℕ) (r c : ℕ), r < n → c < n →
    coo (loop n col cc js) r c = coo (loop n col cc js) c r := by
  induction js with
  | nil => intros; rfl
  | cons j js ih =>
    intro cc r c hr hc
    rw [loop, coo_append, coo_append, addCol_symm cc j r c hr hc, ih _ r c hr hc]

/-- The assembled matrix is symmetric, whatever columns are selected and whatever was computed for them. -/
theorem jhessian_symm (jcols : List ℕ) (r c : ℕ) (hr : r < n) (hc : c < n) :
    jhessian n col jcols r c = jhessian n col jcols c r := loop_symm jcols [] r c hr hc

theorem loop_rest (js : List ℕ) : ∀ (cc : List ℕ) (r c : ℕ), r < n → c < n → r ∉ js → c ∉ js → coo (loop n col cc js) r c = 0 := by
  induction js with
  | nil => intros; rfl
  | cons j js ih =>
    intro cc r c hr hc h1 h2
    simp only [List.mem_cons, not_or] at h1 h2
    rw [loop, coo_append, ih _ r c hr hc h1.2 h2.2, coo_addCol _ _ _ _ hr hc, if_neg (fun h => h2.1 h.1), if_neg (fun h => h1.1 h.1)]
    ring

/-- Nothing is stored for pairs of coefficients that were not selected. -/
theorem jhessian_rest (jcols : List ℕ) (r c : ℕ) (hr : r < n) (hc : c < n) (h1 : r ∉ jcols) (h2 : c ∉ jcols) :
    jhessian n col jcols r c = 0 := loop_rest jcols [] r c hr hc h1 h2

/-- Entries involving an index treated earlier that does not come again are final. -/
theorem loop_done (js : List ℕ) : ∀ (cc : List ℕ) (r c : ℕ), r < n → c < n → r ∈ cc → r ∉ js → coo (loop n col cc js) r c = 0 := by
  induction js with
  | nil => intros; rfl
  | cons j js ih =>
    intro cc r c hr hc h1 h2
    simp only [List.mem_cons, not_or] at h2
    rw [loop, coo_append, ih _ r c hr hc (List.mem_append_left _ h1) h2.2, coo_addCol _ _ _ _ hr hc, if_neg (fun h => h.2 h1),
      if_neg (fun h => h2.1 h.1)]
    ring

theorem loop_first (pre : List ℕ) : ∀ (cc : List ℕ) (j : ℕ) (post : List ℕ) (r : ℕ), r < n → j < n → r ∉ pre → j ∉ pre → r ∉ cc → j ∉ post →
    coo (loop n col cc (pre ++ j :: post)) r j = col j r := by
  induction pre with
  | nil =>
    intro cc j post r hr hj _ _ hcc hp
    rw [List.nil_append, loop, coo_append, coo_addCol _ _ _ _ hr hj, if_pos ⟨rfl, hcc⟩, if_neg (fun h => h.2.2 rfl),
      loop_symm post _ r j hr hj, loop_done post _ j r hj hr (by simp) hp]
    ring
  | cons a pre ih =>
    intro cc j post r hr hj h1 h2 hcc hp
    simp only [List.mem_cons, not_or] at h1 h2
    rw [List.cons_append, loop, coo_append, ih _ j post r hr hj h1.2 h2.2 (by simp [hcc, h1.1]) hp, coo_addCol _ _ _ _ hr hj,
      if_neg (fun h => h2.1 h.1), if_neg (fun h => h1.1 h.1)]
    ring

/-- With distinct selected columns the pair `r`, `j` holds the derivative computed for whichever of the two was
selected first. -/
theorem jhessian_first (pre post : List ℕ) (j r : ℕ) (hr : r < n) (hj : j < n) (hd : (pre ++ j :: post).Nodup) (hp : r ∉ pre) :
    jhessian n col (pre ++ j :: post) r j = col j r ∧ jhessian n col (pre ++ j :: post) j r = col j r := by
  have hj1 : j ∉ pre := fun h => (List.nodup_append.1 hd).2.2 j h j List.mem_cons_self rfl
  have hj2 : j ∉ post := (List.nodup_cons.1 (List.nodup_append.1 hd).2.1).1
  have := loop_first (col := col) pre [] j post r hr hj hp hj1 List.not_mem_nil hj2
  exact ⟨this, by rw [jhessian_symm _ _ _ hj hr]; exact this⟩

/-- With distinct selected columns and symmetric computed derivatives, every selected row and column holds the
computed derivatives. -/
theorem jhessian_cols_partial (jcols : List ℕ) (hd : jcols.Nodup) (hs : ∀ a ∈ jcols, ∀ b ∈ jcols, col a b = col b a)
    (hn : ∀ a ∈ jcols, a < n) (j r : ℕ) (hj : j ∈ jcols) (hr : r < n) :
    jhessian n col jcols r j = col j r ∧ jhessian n col jcols j r = col j r := by
  suffices h : jhessian n col jcols r j = col j r from ⟨h, by rw [jhessian_symm _ _ _ (hn j hj) hr]; exact h⟩
  obtain ⟨pre, post, rfl⟩ := List.append_of_mem hj
  by_cases hp : r ∈ pre
  · obtain ⟨p1, p2, rfl⟩ := List.append_of_mem hp
    have hrm : r ∈ p1 ++ r :: p2 ++ j :: post := List.mem_append_left _ hp
    have e : p1 ++ r :: p2 ++ j :: post = p1 ++ r :: (p2 ++ j :: post) := by simp
    have hj1 : j ∉ p1 := fun h => (List.nodup_append.1 hd).2.2 j (List.mem_append_left _ h) j List.mem_cons_self rfl
    have := (jhessian_first (col := col) p1 (p2 ++ j :: post) r j (hn j hj) hr (by rw [← e]; exact hd) hj1).2
    rw [e, this]
    exact hs r hrm j hj
  · exact (jhessian_first pre post j r hr (hn j hj) hd hp).1

/-- A column selected twice is counted twice off the diagonal. -/
theorem jhessian_dup : jhessian 2 (fun _ _ => 1) [0, 0] 1 0 = 2 ∧ jhessian 2 (fun _ _ => 1) [0, 0] 0 0 = 1 := by
  have h : loop 2 (fun _ _ => (1 : ℝ)) [] [0, 0] = [(0, 0, 1), (1, 0, 1), (0, 1, 1), (1, 0, 1), (0, 1, 1)] := by
    simp [loop, addCol, kept, List.range_succ]
  unfold jhessian
  rw [h]
  constructor <;> simp [coo] <;> norm_num

/-- The full Hessian (exp_fam.py 3878) holds `col j r` for the smaller of the two indices. -/
theorem hessian_full (j r : ℕ) (hr : r < n) (hj : j ≤ r) : jhessian n col (List.range n) r j = col j r ∧ jhessian n col (List.range n) j r = col j r := by
  have hjn : j < n := hj.trans_lt hr
  have e : List.range n = List.range j ++ j :: (List.range (n - j - 1)).map (· + (j + 1)) := by
    have h1 : n = j + (n - j - 1 + 1) := by omega
    conv_lhs => rw [h1, List.range_add, List.range_succ_eq_map]
    simp only [List.map_cons, List.map_map]
    congr 2
    refine List.map_congr_left fun a _ => ?_
    simp only [Function.comp_apply]
    omega
  have hd : (List.range n).Nodup := List.nodup_range
  rw [e] at hd ⊢
  exact jhessian_first _ _ j r hr hjn hd (by simp [hj])

/-- The matrix handed to the structured quasi-Newton update meets what that update assumes of it: selected and other
columns partition the coefficients. -/
theorem jhessian_fdOK {f a t : ℕ} (tcols : Fin f ⊕ Fin a → Fin t) (hb : Function.Bijective tcols) (col : ℕ → ℕ → ℝ) :
    Verif.Compact.FdOK tcols (fun r c => -1 * jhessian t col (List.ofFn fun i : Fin f => (tcols (Sum.inl i) : ℕ)) r c) where
  bij := hb
  mixed := fun i j => by rw [jhessian_symm _ _ _ (tcols _).2 (tcols _).2]
  rest := fun i j => by
    have hne : ∀ k : Fin a, (tcols (Sum.inr k) : ℕ) ∉ List.ofFn fun i : Fin f => (tcols (Sum.inl i) : ℕ) := by
      intro k hk
      obtain ⟨m, hm⟩ := List.mem_ofFn.1 hk
      have := hb.1 (Fin.ext hm)
      cases this
    rw [jhessian_rest _ _ _ (tcols _).2 (tcols _).2 (hne i) (hne j), mul_zero]

/-! ## Concrete cases -/

example : jhessian 4 (fun a b => (a : ℝ) + b) [2, 0] 3 2 = 5 := by
  have := (jhessian_cols_partial (n := 4) (col := fun a b => (a : ℝ) + b) [2, 0] (by simp) (fun a _ b _ => add_comm _ _) (by simp) 2 3 (by simp) (by norm_num)).1
  rw [this]
  norm_num

example : jhessian 4 (fun a b => (a : ℝ) + b) [2, 0] 3 1 = 0 := jhessian_rest _ _ _ (by norm_num) (by norm_num) (by simp) (by simp)

end Verif.Jhess
