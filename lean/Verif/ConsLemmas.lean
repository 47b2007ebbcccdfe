import Verif.ConsModel
import Verif.Tensor
import Mathlib.Algebra.BigOperators.Ring.Finset
import Mathlib.Algebra.BigOperators.Fin
import Mathlib.Algebra.BigOperators.Field
import Mathlib.Data.Fintype.BigOperators
import Mathlib.Data.List.GetD
import Mathlib.Tactic.FieldSimp
import Mathlib.Tactic.Linarith

/-!
# Lemmas about identifiability constraints
-/

namespace Verif.Cons

open Verif.Pen Finset

/-! ### Sums over rows -/

theorem sum_getD (rows : List Row) (f : Row → ℝ) : ∑ r ∈ range rows.length, f (rows.getD r 0) = (rows.map f).sum := by
  induction rows with
  | nil => simp
  | cons a l ih =>
    rw [List.length_cons, sum_range_succ', List.map_cons, List.sum_cons, ← ih]
    simp only [List.getD_cons_succ, List.getD_cons_zero]
    ring

theorem sum_flatten (files : List (List Row)) (f : Row → ℝ) :
    (files.map fun rows => (rows.map f).sum).sum = (files.flatten.map f).sum := by
  induction files with
  | nil => simp
  | cons a l ih => simp [ih]

theorem tpBasis_row (ks : ℕ → ℕ) (B : ℕ → Arr) (d r : ℕ) : tpBasis ks B d r = tpBasis ks (fun v _ => B v r) d 0 := by
  induction d with
  | zero => rfl
  | succ d ih =>
    rw [tpBasis_succ, tpBasis_succ]
    funext j
    simp only [khatri]
    rw [ih]

/-- Row of the tensor basis. -/
def teRow (basis : Basis) (t : Term) (row : Row) : ℕ → ℝ := tpBasis t.nk (fun v _ a => basis (t.nk v) v (row v) a) (t.nv - 1) 0

theorem teBasis_row (basis : Basis) (t : Term) (rows : List Row) (r : ℕ) : teBasis basis t rows r = teRow basis t (rows.getD r 0) := by
  unfold teBasis teRow
  rw [tpBasis_row]
  rfl

theorem matV_sum (basis : Basis) (k : ℕ) (rows : List Row) (v a : ℕ) :
    ∑ r ∈ range rows.length, matV basis k rows v r a = (rows.map fun row => basis k v (row v) a).sum :=
  sum_getD rows fun row => basis k v (row v) a

theorem te_sum (basis : Basis) (t : Term) (rows : List Row) (a : ℕ) :
    ∑ r ∈ range rows.length, teBasis basis t rows r a = (rows.map fun row => teRow basis t row a).sum := by
  rw [← sum_getD rows fun row => teRow basis t row a]
  exact sum_congr rfl fun r _ => by rw [teBasis_row]

theorem getD_map_range (n v : ℕ) (f : ℕ → ℕ → ℝ) (h : v < n) : ((List.range n).map f).getD v 0 = f v := by
  rw [List.getD_eq_getElem _ _ (by simpa using h)]
  simp

theorem total_te (basis : Basis) (t : Term) (files : List (List Row)) (h : t.te = true) :
    total (files.map (fileC basis t)) 0 = fun a => ∑ r ∈ range files.flatten.length, teBasis basis t files.flatten r a := by
  funext a
  rw [te_sum, ← sum_flatten]
  simp only [total, List.map_map]
  congr 1
  refine List.map_congr_left fun rows _ => ?_
  simp only [Function.comp_apply, fileC, h, if_true, List.getD_cons_zero]
  exact te_sum basis t rows a

theorem total_var (basis : Basis) (t : Term) (files : List (List Row)) (h : t.te = false) (v : ℕ) (hv : v < t.nv) :
    total (files.map (fileC basis t)) v =
      fun a => ∑ r ∈ range files.flatten.length, matV basis (idNk t v) files.flatten v r a := by
  funext a
  rw [matV_sum, ← sum_flatten]
  simp only [total, List.map_map]
  congr 1
  refine List.map_congr_left fun rows _ => ?_
  simp only [Function.comp_apply, fileC, h, Bool.false_eq_true, if_false]
  rw [getD_map_range _ _ _ hv]
  exact matV_sum basis (idNk t v) rows v a

/-! ### The list of constraints -/

theorem step_zero (qrQ : (ℕ → ℝ) → Arr) (basis : Basis) (t : Term) (rows : List Row) (h : t.rp = 0 ∨ repara t = .ok ()) (z : List Con)
    (v : ℕ) : step qrQ basis t rows z v = .ok (if t.te then z else
      z ++ [makeCon qrQ (idNk t v) rows.length t.kind (matV basis (idNk t v) rows v)]) := by
  unfold step
  rcases h with h | h
  · simp only [h, gt_iff_lt, lt_irrefl, if_false]; rfl
  · by_cases hr : t.rp > 0
    · simp only [hr, if_true, h]; rfl
    · simp only [hr, if_false]; rfl

theorem loop (qrQ : (ℕ → ℝ) → Arr) (basis : Basis) (t : Term) (rows : List Row) (h : t.rp = 0 ∨ repara t = .ok ()) (l : List ℕ) (z : List Con) :
    l.foldlM (step qrQ basis t rows) z = .ok (if t.te then z else
      z ++ l.map fun v => makeCon qrQ (idNk t v) rows.length t.kind (matV basis (idNk t v) rows v)) := by
  induction l generalizing z with
  | nil => cases t.te <;> simp <;> rfl
  | cons v l ih =>
    rw [List.foldlM_cons, step_zero qrQ basis t rows h]
    show List.foldlM _ _ l = _
    rw [ih]
    cases t.te <;> simp

theorem absorbMem_ok (qrQ : (ℕ → ℝ) → Arr) (basis : Basis) (t : Term) (rows : List Row) (hi : t.ident = true) (h : t.rp = 0 ∨ repara t = .ok ()) :
    absorbMem qrQ basis t rows = .ok (if t.te then [makeCon qrQ (teCols t) rows.length t.kind (teBasis basis t rows)] else
      (List.range t.nv).map fun v => makeCon qrQ (idNk t v) rows.length t.kind (matV basis (idNk t v) rows v)) := by
  unfold absorbMem
  rw [if_neg (by simp [hi]), loop qrQ basis t rows h]
  show (if t.te = true then (pure _ : Except Err (List Con)) else pure _) = _
  cases t.te <;> simp <;> rfl

/-! ### One constrained basis -/

/-- Columns are independent on the rows selected by `P`. -/
def Indep (P : ℕ → Prop) (n : ℕ) (B : Arr) : Prop := ∀ β : ℕ → ℝ, (∀ r, P r → ∑ a ∈ range n, B r a * β a = 0) → ∀ a < n, β a = 0

theorem holds_const (n N : ℕ) (hn : 0 < n) (hN : 0 < N) (kind : Kind) (B : Arr) (hu : ∀ r < N, ∑ a ∈ range n, B r a = 1) (β : ℕ → ℝ) (c : ℝ)
    (hc : ∀ a < n, β a = c) (h : Holds n N kind B β) : c = 0 := by
  cases kind with
  | qr =>
    simp only [Holds] at h
    have : ∑ r ∈ range N, ∑ a ∈ range n, B r a * β a = N * c := by
      rw [sum_congr rfl fun r hr => ?_, sum_const, card_range, nsmul_eq_mul]
      rw [sum_congr rfl fun a ha => by rw [hc a (mem_range.1 ha)], ← sum_mul, hu r (mem_range.1 hr), one_mul]
    rw [this] at h
    rcases mul_eq_zero.1 h with h | h
    · simp at h; omega
    · exact h
  | drop =>
    simp only [Holds] at h
    rw [hc _ (Nat.div_lt_self hn (by omega))] at h
    exact h
  | diff =>
    simp only [Holds] at h
    rw [sum_congr rfl fun a ha => hc a (mem_range.1 ha), sum_const, card_range, nsmul_eq_mul] at h
    rcases mul_eq_zero.1 h with h | h
    · simp at h; omega
    · exact h

theorem unity_ne (n N : ℕ) (hN : 0 < N) (B : Arr) (hu : ∀ r < N, ∑ a ∈ range n, B r a = 1) : ∃ a < n, ∑ r ∈ range N, B r a ≠ 0 := by
  by_contra hne
  push Not at hne
  have : ∑ a ∈ range n, ∑ r ∈ range N, B r a = 0 := sum_eq_zero fun a ha => hne a (mem_range.1 ha)
  rw [sum_comm, sum_congr rfl fun r hr => hu r (mem_range.1 hr)] at this
  simp at this
  omega

/-- A constrained basis contains no constant, on any rows on which the unconstrained columns are independent. -/
theorem core (qrQ : (ℕ → ℝ) → Arr) (n N : ℕ) (hn : 0 < n) (hN : 0 < N) (kind : Kind) (B : Arr)
    (hQ : kind = .qr → QrSpec n (fun a => ∑ r ∈ range N, B r a) (qrQ fun a => ∑ r ∈ range N, B r a))
    (hu : ∀ r < N, ∑ a ∈ range n, B r a = 1) (P : ℕ → Prop) (B' : Arr) (hu' : ∀ r, P r → ∑ a ∈ range n, B' r a = 1)
    (hi : Indep P n B') (c : ℝ) (γ : ℕ → ℝ)
    (h : ∀ r, P r → ∑ j ∈ range (n - 1), absorbB n (makeCon qrQ n N kind B) B' r j * γ j = c) : c = 0 ∧ ∀ j < n - 1, γ j = 0 := by
  obtain ⟨T, h1, -, -, h4, h5⟩ := constraint_absorbed qrQ n N hn kind B hQ fun _ => unity_ne n N hN B hu
  have hβ : ∀ a < n, (∑ j ∈ range (n - 1), T a j * γ j) - c = 0 := by
    refine hi (fun a => (∑ j ∈ range (n - 1), T a j * γ j) - c) fun r hr => ?_
    have e := h r hr
    rw [h1] at e
    simp only [mul_sub, sum_sub_distrib, ← sum_mul, hu' r hr]
    rw [e]; ring
  have hc : c = 0 := holds_const n N hn hN kind B hu (fun a => ∑ j ∈ range (n - 1), T a j * γ j) c (fun a ha => by linarith [hβ a ha])
    ((h4 _).1 ⟨γ, fun a _ => rfl⟩)
  refine ⟨hc, fun j hj => ?_⟩
  have := h5 γ 0 (fun a ha => by have := hβ a ha; simp; linarith) j hj
  simpa using this

/-! ### Digits -/

/-- Digit of margin `i`. -/
def digit (ks : ℕ → ℕ) (d i x : ℕ) : ℕ := x / stride ks d i % ks i

theorem stride_succ (ks : ℕ → ℕ) (d i : ℕ) (hi : i ≤ d) : stride ks (d + 1) i = ks (d + 1) * stride ks d i := by
  unfold stride
  rw [Finset.prod_Ico_succ_top (by omega), mul_comm]

theorem digit_inj (ks : ℕ → ℕ) (d x y : ℕ) (hx : x < ∏ i ∈ range (d + 1), ks i) (hy : y < ∏ i ∈ range (d + 1), ks i)
    (h : ∀ i ≤ d, digit ks d i x = digit ks d i y) : x = y := by
  induction d generalizing x y with
  | zero =>
    have := h 0 le_rfl
    simp only [zero_add, prod_range_one] at hx hy
    simpa [digit, stride, Nat.mod_eq_of_lt hx, Nat.mod_eq_of_lt hy] using this
  | succ d ih =>
    rw [prod_range_succ] at hx hy
    have hpos : 0 < ks (d + 1) := by
      rcases Nat.eq_zero_or_pos (ks (d + 1)) with h0 | h0
      · rw [h0] at hx; simp at hx
      · exact h0
    have h1 : x / ks (d + 1) = y / ks (d + 1) := by
      refine ih _ _ (by rw [Nat.div_lt_iff_lt_mul hpos]; exact hx) (by rw [Nat.div_lt_iff_lt_mul hpos]; exact hy) fun i hi => ?_
      have := h i (by omega)
      unfold digit at this ⊢
      rw [stride_succ ks d i hi, ← Nat.div_div_eq_div_mul, ← Nat.div_div_eq_div_mul] at this
      exact this
    have h2 : x % ks (d + 1) = y % ks (d + 1) := by
      have := h (d + 1) le_rfl
      simpa [digit, stride] using this
    rw [← Nat.div_add_mod x (ks (d + 1)), ← Nat.div_add_mod y (ks (d + 1)), h1, h2]

/-- Indices of a tensor basis as tuples of marginal indices. -/
abbrev Multi (ks : ℕ → ℕ) (d : ℕ) := ∀ i : Fin (d + 1), Fin (ks i)

theorem prod_fin (ks : ℕ → ℕ) (d : ℕ) : ∏ i ∈ range (d + 1), ks i = ∏ i : Fin (d + 1), ks i := by rw [Finset.prod_range]

theorem pos_of_lt (ks : ℕ → ℕ) (d x : ℕ) (hx : x < ∏ i ∈ range (d + 1), ks i) (i : ℕ) (hi : i ≤ d) : 0 < ks i := by
  rcases Nat.eq_zero_or_pos (ks i) with h0 | h0
  · rw [prod_eq_zero (mem_range.2 (by omega : i < d + 1)) h0] at hx; simp at hx
  · exact h0

/-- Digits as a tuple. -/
def toMulti (ks : ℕ → ℕ) (d : ℕ) (x : Fin (∏ i ∈ range (d + 1), ks i)) : Multi ks d :=
  fun i => ⟨digit ks d i x, Nat.mod_lt _ (pos_of_lt ks d x x.2 i (by omega))⟩

theorem toMulti_bij (ks : ℕ → ℕ) (d : ℕ) : Function.Bijective (toMulti ks d) := by
  rw [Fintype.bijective_iff_injective_and_card]
  refine ⟨fun x y h => Fin.ext (digit_inj ks d x y x.2 y.2 fun i hi => ?_), ?_⟩
  · have := congrFun h ⟨i, by omega⟩
    exact congrArg Fin.val this
  · rw [Fintype.card_fin, Fintype.card_pi, prod_fin]
    simp

/-- Tuples and flat indices. -/
noncomputable def eqv (ks : ℕ → ℕ) (d : ℕ) : Fin (∏ i ∈ range (d + 1), ks i) ≃ Multi ks d := Equiv.ofBijective _ (toMulti_bij ks d)

theorem sum_multi (ks : ℕ → ℕ) (d : ℕ) (f : ℕ → ℝ) :
    ∑ x ∈ range (∏ i ∈ range (d + 1), ks i), f x = ∑ m : Multi ks d, f ((eqv ks d).symm m) := by
  rw [Finset.sum_range]
  exact Fintype.sum_equiv (eqv ks d) _ _ fun x => by simp

theorem tpBasis_multi (ks : ℕ → ℕ) (B : ℕ → Arr) (d r : ℕ) (m : Multi ks d) :
    tpBasis ks B d r ((eqv ks d).symm m) = ∏ i : Fin (d + 1), B i r (m i) := by
  rw [tensor_basis ks B d r _ ((eqv ks d).symm m).2, Finset.prod_range]
  refine prod_congr rfl fun i _ => ?_
  have : toMulti ks d ((eqv ks d).symm m) = m := (eqv ks d).apply_symm_apply m
  have := congrArg Fin.val (congrFun this i)
  rw [← this]
  rfl

/-! ### Elimination of functions that do not depend on all margins -/

section elim

variable {n : ℕ} {κ : Fin n → Type} [∀ i, Fintype (κ i)]

/-- Removes what is constant along margin `i`. -/
noncomputable def proj (l : ∀ i, κ i → ℝ) (i : Fin n) (f : (∀ i, κ i) → ℝ) : (∀ i, κ i) → ℝ :=
  fun m => f m - (∑ a, l i a * f (Function.update m i a)) / ∑ a, l i a

theorem elim (l : ∀ i, κ i → ℝ) (hl : ∀ i, ∑ a, l i a ≠ 0) (β : (∀ i, κ i) → ℝ)
    (hβ : ∀ i m, ∑ a, l i a * β (Function.update m i a) = 0) (h : Fin n → (∀ i, κ i) → ℝ)
    (hh : ∀ i m a, h i (Function.update m i a) = h i m) (hs : ∀ m, β m = ∑ i, h i m) : ∀ m, β m = 0 := by
  have key : ∀ s : Finset (Fin n), ∃ h' : Fin n → (∀ i, κ i) → ℝ, (∀ i m a, h' i (Function.update m i a) = h' i m) ∧
      (∀ m, β m = ∑ i, h' i m) ∧ ∀ i ∈ s, ∀ m, h' i m = 0 := by
    intro s
    induction s using Finset.induction_on with
    | empty => exact ⟨h, hh, hs, by simp⟩
    | insert i s _ ih =>
      obtain ⟨h', h1, h2, h3⟩ := ih
      refine ⟨fun j => proj l i (h' j), ?_, ?_, ?_⟩
      · intro j m a
        by_cases hij : j = i
        · subst hij
          simp only [proj, Function.update_idem, h1]
        · simp only [proj, h1]
          congr 2
          refine sum_congr rfl fun b _ => ?_
          rw [Function.update_comm hij, h1]
      · intro m
        simp only [proj]
        rw [sum_sub_distrib, ← h2, ← sum_div, sum_comm]
        simp only [← mul_sum, ← h2, hβ]
        simp
      · intro j hj m
        rcases Finset.mem_insert.1 hj with rfl | hj
        · simp only [proj, h1]
          rw [← sum_mul]
          field_simp [hl j]
          ring
        · simp only [proj, h3 j hj]
          simp
  obtain ⟨h', -, h2, h3⟩ := key univ
  intro m
  rw [h2]
  exact sum_eq_zero fun i _ => h3 i (mem_univ i) m

end elim

end Verif.Cons
