import Verif.TensorModel
import Verif.Pen

/-! # Tensor smooths (property C24) -/

namespace Verif.Pen

open Finset

/-! ### Index arithmetic -/

theorem sum_range_mul (N k : ℕ) (f : ℕ → ℝ) :
    ∑ x ∈ range (N * k), f x = ∑ a ∈ range N, ∑ b ∈ range k, f (a * k + b) := by
  induction N with
  | zero => simp
  | succ N ih => rw [Nat.succ_mul, Finset.sum_range_add, ih, Finset.sum_range_succ]

theorem dm (k a b : ℕ) (hb : b < k) : (a * k + b) / k = a ∧ (a * k + b) % k = b := by
  have hk : 0 < k := by omega
  constructor
  · rw [mul_comm, Nat.mul_add_div hk, Nat.div_eq_of_lt hb, add_zero]
  · rw [mul_comm, Nat.mul_add_mod, Nat.mod_eq_of_lt hb]

theorem quad_congr (n : ℕ) (S S' : Arr) (h : ∀ i < n, ∀ j < n, S i j = S' i j) (v : ℕ → ℝ) :
    quad n S v = quad n S' v :=
  Finset.sum_congr rfl fun i hi => Finset.sum_congr rfl fun j hj => by
    rw [h i (mem_range.1 hi) j (mem_range.1 hj)]

theorem quad_kron (N k : ℕ) (A B : Arr) (c : ℕ → ℝ) :
    quad (N * k) (kron k k A B) c
      = ∑ a ∈ range N, ∑ b ∈ range k, ∑ a' ∈ range N, ∑ b' ∈ range k,
          c (a * k + b) * (A a a' * B b b') * c (a' * k + b') := by
  unfold quad
  rw [sum_range_mul]
  refine Finset.sum_congr rfl fun a _ => Finset.sum_congr rfl fun b hb => ?_
  rw [sum_range_mul]
  refine Finset.sum_congr rfl fun a' _ => Finset.sum_congr rfl fun b' hb' => ?_
  obtain ⟨h1, h2⟩ := dm k a b (mem_range.1 hb)
  obtain ⟨h3, h4⟩ := dm k a' b' (mem_range.1 hb')
  simp only [kron, h1, h2, h3, h4]

theorem kron_eye_right (N k : ℕ) (A : Arr) (c : ℕ → ℝ) :
    quad (N * k) (kron k k A eye) c = ∑ b ∈ range k, quad N A (fun i => c (i * k + b)) := by
  rw [quad_kron]
  simp only [quad]
  rw [Finset.sum_comm]
  refine Finset.sum_congr rfl fun b hb => Finset.sum_congr rfl fun a _ =>
    Finset.sum_congr rfl fun a' _ => ?_
  rw [Finset.sum_eq_single b]
  · simp [eye]
  · intro b' _ hne; simp [eye, Ne.symm hne]
  · intro h; exact absurd hb h

theorem kron_eye_left (N k : ℕ) (S : Arr) (c : ℕ → ℝ) :
    quad (N * k) (kron k k eye S) c = ∑ a ∈ range N, quad k S (fun i => c (a * k + i)) := by
  rw [quad_kron]
  simp only [quad]
  refine Finset.sum_congr rfl fun a ha => Finset.sum_congr rfl fun b _ => ?_
  rw [Finset.sum_eq_single a]
  · simp [eye]
  · intro a' _ hne; simp [eye, Ne.symm hne]
  · intro h; exact absurd ha h

theorem tpKron_succ (ks : ℕ → ℕ) (j cs : ℕ) (S : Arr) (d : ℕ) :
    tpKron ks j cs S (d + 1) = if j = d + 1 then kron (ks (d + 1)) cs (tpKron ks j cs S d) S
      else kron (ks (d + 1)) (ks (d + 1)) (tpKron ks j cs S d) eye := by
  simp only [tpKron, List.range_succ, List.foldl_append, List.foldl_cons, List.foldl_nil]

/-- Before the margin is reached the loop holds an identity. -/
theorem tpKron_eye (ks : ℕ → ℕ) (j cs : ℕ) (S : Arr) (d : ℕ) (hd : d < j) (i i' : ℕ) :
    (∀ t ≤ d, 0 < ks t) → tpKron ks j cs S d i i' = eye i i' := by
  induction d generalizing i i' with
  | zero => intro _; simp only [tpKron, List.range_zero, List.foldl_nil]; rw [if_neg (by omega)]
  | succ d ih =>
    intro hk
    rw [tpKron_succ, if_neg (by omega)]
    simp only [kron]
    rw [ih (by omega) _ _ (fun t ht => hk t (by omega))]
    have h0 := hk (d + 1) le_rfl
    simp only [eye]
    by_cases h : i = i'
    · subst h; simp
    · rw [if_neg h]
      by_cases h1 : i / ks (d + 1) = i' / ks (d + 1)
      · rw [if_pos h1, if_neg, mul_zero]
        intro h2
        apply h
        rw [← Nat.div_add_mod i (ks (d + 1)), ← Nat.div_add_mod i' (ks (d + 1)), h1, h2]
      · rw [if_neg h1, zero_mul]

/-- Distance between coefficients that are neighbours along margin `j`. -/
def stride (ks : ℕ → ℕ) (d j : ℕ) : ℕ := ∏ l ∈ Ico (j + 1) (d + 1), ks l

/-- **C24, penalties.** The tensor penalty of margin `j` of any coefficient array is the sum, over
all settings of the other indices, of the marginal penalty of the coefficients along margin `j`. -/
theorem tensor_penalty (ks : ℕ → ℕ) (S : Arr) (j d : ℕ) (hj : j ≤ d) (hk : ∀ t ≤ d, 0 < ks t)
    (c : ℕ → ℝ) :
    quad (∏ i ∈ range (d + 1), ks i) (tpKron ks j (ks j) S d) c
      = ∑ a ∈ range (∏ i ∈ range j, ks i), ∑ b ∈ range (stride ks d j),
          quad (ks j) S (fun i => c ((a * ks j + i) * stride ks d j + b)) := by
  induction d generalizing c with
  | zero =>
    obtain rfl : j = 0 := by omega
    simp [tpKron, stride]
  | succ d ih =>
    rcases Nat.lt_or_ge d j with h | h
    · obtain rfl : j = d + 1 := by omega
      rw [Finset.prod_range_succ, tpKron_succ, if_pos rfl]
      rw [quad_congr _ _ (kron (ks (d + 1)) (ks (d + 1)) eye S) (fun i _ i' _ => by
        simp only [kron]
        rw [tpKron_eye ks (d + 1) _ S d (by omega) _ _ (fun t ht => hk t (by omega))]),
        kron_eye_left]
      simp [stride]
    · have hs : stride ks (d + 1) j = stride ks d j * ks (d + 1) := by
        unfold stride
        rw [Finset.prod_Ico_succ_top (by omega)]
      rw [Finset.prod_range_succ, tpKron_succ, if_neg (by omega), kron_eye_right]
      rw [Finset.sum_congr rfl fun b _ => ih h (fun t ht => hk t (by omega)) _]
      rw [Finset.sum_comm]
      refine Finset.sum_congr rfl fun a _ => ?_
      rw [hs, sum_range_mul, Finset.sum_comm]
      refine Finset.sum_congr rfl fun b _ => Finset.sum_congr rfl fun b' _ => ?_
      congr 1
      funext i
      congr 1
      ring

theorem tpBasis_succ (ks : ℕ → ℕ) (B : ℕ → Arr) (d : ℕ) :
    tpBasis ks B (d + 1) = khatri (ks (d + 1)) (tpBasis ks B d) (B (d + 1)) := by
  simp only [tpBasis, List.range_succ, List.foldl_append, List.foldl_cons, List.foldl_nil]

/-- **C24, basis.** Column `x` of the tensor basis is the product of the marginal basis functions
whose indices are the digits of `x` with respect to the same strides. -/
theorem tensor_basis (ks : ℕ → ℕ) (B : ℕ → Arr) (d r x : ℕ)
    (hx : x < ∏ i ∈ range (d + 1), ks i) :
    tpBasis ks B d r x = ∏ i ∈ range (d + 1), B i r (x / stride ks d i % ks i) := by
  induction d generalizing x with
  | zero =>
    simp only [zero_add, Finset.prod_range_one] at hx ⊢
    simp [tpBasis, stride, Nat.mod_eq_of_lt hx]
  | succ d ih =>
    have hpos : 0 < ks (d + 1) := by
      rcases Nat.eq_zero_or_pos (ks (d + 1)) with h | h
      · rw [Finset.prod_range_succ, h] at hx; simp at hx
      · exact h
    rw [Finset.prod_range_succ] at hx
    rw [tpBasis_succ, Finset.prod_range_succ]
    simp only [khatri]
    rw [ih (x / ks (d + 1)) (by rw [Nat.div_lt_iff_lt_mul hpos]; exact hx)]
    congr 1
    · refine Finset.prod_congr rfl fun i hi => ?_
      have hs : stride ks (d + 1) i = ks (d + 1) * stride ks d i := by
        unfold stride
        rw [Finset.prod_Ico_succ_top (by have := mem_range.1 hi; omega), mul_comm]
      rw [hs, Nat.div_div_eq_div_mul]
    · simp [stride]

/-- The coefficient with index `(a * ks j + i) * stride + b`, which `tensor_penalty` treats as the
`i`-th along margin `j`, multiplies the `i`-th basis function of margin `j`. -/
theorem digit_along (ks : ℕ → ℕ) (d j a i b : ℕ) (hi : i < ks j) (hb : b < stride ks d j) :
    ((a * ks j + i) * stride ks d j + b) / stride ks d j % ks j = i := by
  rw [(dm (stride ks d j) (a * ks j + i) b hb).1, (dm (ks j) a i hi).2]

/-- The indices of the penalty's double sum are all coefficients, each once. -/
theorem fibres_cover (ks : ℕ → ℕ) (d j : ℕ) (hj : j ≤ d) (f : ℕ → ℝ) :
    ∑ x ∈ range (∏ i ∈ range (d + 1), ks i), f x
      = ∑ a ∈ range (∏ i ∈ range j, ks i), ∑ i ∈ range (ks j), ∑ b ∈ range (stride ks d j),
          f ((a * ks j + i) * stride ks d j + b) := by
  have : ∏ i ∈ range (d + 1), ks i = (∏ i ∈ range j, ks i) * ks j * stride ks d j := by
    unfold stride
    rw [← Finset.prod_range_succ, Finset.prod_range_mul_prod_Ico _ (by omega)]
  rw [this, sum_range_mul, sum_range_mul]

/-- Coefficients of a product of functions of the margins. -/
def sep (ks : ℕ → ℕ) (v : ℕ → ℕ → ℝ) (d : ℕ) : ℕ → ℝ :=
  fun x => ∏ i ∈ range (d + 1), v i (x / stride ks d i % ks i)

theorem sep_succ (ks : ℕ → ℕ) (v : ℕ → ℕ → ℝ) (d a b : ℕ) (hb : b < ks (d + 1)) :
    sep ks v (d + 1) (a * ks (d + 1) + b) = sep ks v d a * v (d + 1) b := by
  unfold sep
  rw [Finset.prod_range_succ]
  congr 1
  · refine Finset.prod_congr rfl fun i hi => ?_
    have hs : stride ks (d + 1) i = ks (d + 1) * stride ks d i := by
      unfold stride
      rw [Finset.prod_Ico_succ_top (by have := mem_range.1 hi; omega), mul_comm]
    rw [hs, ← Nat.div_div_eq_div_mul, (dm _ a b hb).1]
  · simp [stride, (dm _ a b hb).2]

/-- **C24, separable fits.** With separable coefficients the tensor smooth is the product of the
marginal smooths. -/
theorem tensor_separable (ks : ℕ → ℕ) (B : ℕ → Arr) (v : ℕ → ℕ → ℝ) (d r : ℕ) :
    ∑ x ∈ range (∏ i ∈ range (d + 1), ks i), tpBasis ks B d r x * sep ks v d x
      = ∏ i ∈ range (d + 1), ∑ a ∈ range (ks i), B i r a * v i a := by
  induction d with
  | zero =>
    simp only [zero_add, Finset.prod_range_one]
    refine Finset.sum_congr rfl fun x hx => ?_
    simp [tpBasis, sep, stride, Nat.mod_eq_of_lt (mem_range.1 hx)]
  | succ d ih =>
    rw [Finset.prod_range_succ, sum_range_mul, Finset.prod_range_succ (n := d + 1), ← ih,
      Finset.sum_mul_sum]
    refine Finset.sum_congr rfl fun a _ => Finset.sum_congr rfl fun b hb => ?_
    rw [sep_succ ks v d a b (mem_range.1 hb), tpBasis_succ]
    simp only [khatri]
    rw [(dm _ a b (mem_range.1 hb)).1, (dm _ a b (mem_range.1 hb)).2]
    ring

theorem quad_kron_sep (N k : ℕ) (A B : Arr) (v w c : ℕ → ℝ)
    (hc : ∀ a < N, ∀ b < k, c (a * k + b) = v a * w b) :
    quad (N * k) (kron k k A B) c = quad N A v * quad k B w := by
  rw [quad_kron]
  simp only [quad]
  have e : ∀ a ∈ range N, ∀ a' ∈ range N, ∀ b ∈ range k, ∀ b' ∈ range k,
      c (a * k + b) * (A a a' * B b b') * c (a' * k + b')
        = v a * A a a' * v a' * (w b * B b b' * w b') := by
    intro a ha a' ha' b hb b' hb'
    rw [hc a (mem_range.1 ha) b (mem_range.1 hb), hc a' (mem_range.1 ha') b' (mem_range.1 hb')]
    ring
  have e1 : ∀ a ∈ range N, ∑ b ∈ range k, ∑ a' ∈ range N, ∑ b' ∈ range k,
      c (a * k + b) * (A a a' * B b b') * c (a' * k + b')
      = ∑ a' ∈ range N, ∑ b ∈ range k, ∑ b' ∈ range k,
        v a * A a a' * v a' * (w b * B b b' * w b') := by
    intro a ha
    rw [Finset.sum_comm]
    exact Finset.sum_congr rfl fun a' ha' => Finset.sum_congr rfl fun b hb =>
      Finset.sum_congr rfl fun b' hb' => e a ha a' ha' b hb b' hb'
  rw [Finset.sum_congr rfl e1, Finset.sum_mul]
  refine Finset.sum_congr rfl fun a _ => ?_
  rw [Finset.sum_mul]
  refine Finset.sum_congr rfl fun a' _ => ?_
  simp only [Finset.mul_sum]

/-- **C24, separable penalties.** The penalty of margin `j` of a separable array is the marginal
penalty of that factor times the squared norms of the others. -/
theorem tensor_separable_penalty (ks : ℕ → ℕ) (S : Arr) (v : ℕ → ℕ → ℝ) (j d : ℕ) (hj : j ≤ d) :
    quad (∏ i ∈ range (d + 1), ks i) (tpKron ks j (ks j) S d) (sep ks v d)
      = quad (ks j) S (v j)
        * ∏ i ∈ (range (d + 1)).erase j, ∑ a ∈ range (ks i), v i a ^ 2 := by
  have heye : ∀ k (w : ℕ → ℝ), quad k eye w = ∑ a ∈ range k, w a ^ 2 := by
    intro k w
    refine Finset.sum_congr rfl fun a ha => ?_
    rw [Finset.sum_eq_single a]
    · simp [eye]; ring
    · intro b _ hb; simp [eye, Ne.symm hb]
    · intro h; exact absurd ha h
  have key : ∀ d, quad (∏ i ∈ range (d + 1), ks i) (tpKron ks j (ks j) S d) (sep ks v d)
      = ∏ i ∈ range (d + 1), if i = j then quad (ks j) S (v j) else ∑ a ∈ range (ks i), v i a ^ 2 := by
    intro d
    induction d with
    | zero =>
      simp only [zero_add, Finset.prod_range_one]
      have hs : ∀ x < ks 0, sep ks v 0 x = v 0 x := by
        intro x hx
        simp [sep, stride, Nat.mod_eq_of_lt hx]
      have hq : ∀ A, quad (ks 0) A (sep ks v 0) = quad (ks 0) A (v 0) := fun A =>
        Finset.sum_congr rfl fun a ha => Finset.sum_congr rfl fun b hb => by
          rw [hs a (mem_range.1 ha), hs b (mem_range.1 hb)]
      rw [hq]
      simp only [tpKron, List.range_zero, List.foldl_nil]
      by_cases h : j = 0
      · subst h; simp
      · rw [if_neg h, if_neg (fun e => h e.symm), heye]
    | succ d ih =>
      rw [Finset.prod_range_succ, Finset.prod_range_succ (n := d + 1), ← ih, tpKron_succ]
      by_cases h : j = d + 1
      · subst h
        rw [if_pos rfl, if_pos rfl]
        exact quad_kron_sep _ _ _ _ (sep ks v d) (v (d + 1)) _
          (fun a _ b hb => sep_succ ks v d a b hb)
      · rw [if_neg h, if_neg (fun e => h e.symm), ← heye]
        exact quad_kron_sep _ _ _ _ (sep ks v d) (v (d + 1)) _
          (fun a _ b hb => sep_succ ks v d a b hb)
  rw [key, ← Finset.mul_prod_erase _ _ (mem_range.2 (show j < d + 1 by omega)), if_pos rfl]
  congr 1
  refine Finset.prod_congr rfl fun i hi => ?_
  rw [if_neg (Finset.ne_of_mem_erase hi)]

/-! ### Roots, scaling and constraints of the tensor penalty -/

theorem kron_gram (k c N : ℕ) (A B : Arr) (i j : ℕ) :
    gram (N * c) (kron k c A B) i j = kron k k (gram N A) (gram c B) i j := by
  simp only [gram, kron]
  rw [sum_range_mul, Finset.sum_mul_sum]
  refine Finset.sum_congr rfl fun a _ => Finset.sum_congr rfl fun b hb => ?_
  rw [(dm c a b (mem_range.1 hb)).1, (dm c a b (mem_range.1 hb)).2]
  ring

theorem gram_eye (k i j : ℕ) (hi : i < k) : gram k eye i j = eye i j := by
  simp only [gram, eye, ite_mul, one_mul, zero_mul, Finset.sum_ite_eq, mem_range, hi, if_true]
  by_cases h : i = j
  · rw [if_pos h, if_pos h.symm]
  · rw [if_neg h, if_neg (Ne.symm h)]

theorem tpCols_succ (ks : ℕ → ℕ) (j cs d : ℕ) :
    tpCols ks j cs (d + 1) = tpCols ks j cs d * (if d + 1 = j then cs else ks (d + 1)) := by
  unfold tpCols; rw [Finset.prod_range_succ]

/-- The Kronecker root squares to the Kronecker penalty. -/
theorem tensor_root (ks : ℕ → ℕ) (j cs : ℕ) (S D : Arr)
    (hD : ∀ i < ks j, ∀ i' < ks j, gram cs D i i' = S i i') (d : ℕ) (i i' : ℕ)
    (hi : i < ∏ t ∈ range (d + 1), ks t) (hi' : i' < ∏ t ∈ range (d + 1), ks t) :
    gram (tpCols ks j cs d) (tpKron ks j cs D d) i i' = tpKron ks j (ks j) S d i i' := by
  induction d generalizing i i' with
  | zero =>
    simp only [zero_add, Finset.prod_range_one] at hi hi'
    simp only [tpKron, tpCols, List.range_zero, List.foldl_nil, zero_add, Finset.prod_range_one]
    by_cases h : j = 0
    · subst h; simp only [if_true]; exact hD i hi i' hi'
    · rw [if_neg h, if_neg h, if_neg (fun e => h e.symm)]
      exact gram_eye (ks 0) i i' hi
  | succ d ih =>
    have hpos : 0 < ks (d + 1) := by
      rcases Nat.eq_zero_or_pos (ks (d + 1)) with h | h
      · rw [Finset.prod_range_succ, h] at hi; simp at hi
      · exact h
    rw [Finset.prod_range_succ] at hi hi'
    have h1 : i / ks (d + 1) < ∏ t ∈ range (d + 1), ks t := by
      rw [Nat.div_lt_iff_lt_mul hpos]; exact hi
    have h2 : i' / ks (d + 1) < ∏ t ∈ range (d + 1), ks t := by
      rw [Nat.div_lt_iff_lt_mul hpos]; exact hi'
    have m1 := Nat.mod_lt i hpos
    have m2 := Nat.mod_lt i' hpos
    rw [tpCols_succ, tpKron_succ, tpKron_succ]
    by_cases h : j = d + 1
    · subst h
      simp only [if_true]
      rw [kron_gram]
      simp only [kron]
      rw [ih _ _ h1 h2, hD _ m1 _ m2]
    · rw [if_neg h, if_neg h, if_neg (fun e => h e.symm), kron_gram]
      simp only [kron]
      rw [ih _ _ h1 h2, gram_eye _ _ _ m1]

/-- Scaling keeps penalty and root together. -/
theorem scale_root (scale : Bool) (e : ℝ) (he : 0 < e) (cs : ℕ) (S D : Arr) (i j : ℕ)
    (h : gram cs D i j = S i j) : gram cs (scaleD scale e D) i j = scaleS scale e S i j := by
  cases scale with
  | false => exact h
  | true =>
    simp only [scaleD, scaleS, if_true, ← h, gram, Finset.sum_div]
    refine Finset.sum_congr rfl fun l _ => ?_
    rw [div_mul_div_comm, Real.mul_self_sqrt he.le]

/-- The root recomputed from an eigendecomposition squares to the matrix when every eigenvalue is
zero or above the tolerance. -/
theorem eigRoot_exact (q : ℕ) (A : Arr) (e : (ℕ → ℝ) × Arr) (he : EighSpec q A e)
    (hev : ∀ k < q, e.1 k = 0 ∨ tol < e.1 k) (i j : ℕ) (hi : i < q) (hj : j < q) :
    ∑ l ∈ range q, eigRoot e i l * eigRoot e j l = A i j := by
  rw [he.fac i hi j hj]
  refine Finset.sum_congr rfl fun l hl => ?_
  have ht : 0 < tol := by unfold tol; positivity
  simp only [eigRoot]
  rcases hev l (mem_range.1 hl) with h | h
  · rw [h, if_neg (by linarith)]; ring
  · rw [if_pos h]
    have := Real.mul_self_sqrt (ht.trans h).le
    linear_combination e.2 i l * e.2 j l * this

/-- **C24 with constraints.** Whatever `tpPen` returns, its root squares to its penalty (given exact
marginal roots and eigenvalues that are zero or above the tolerance), and the penalty of
constrained coefficients is the unconstrained tensor penalty of the back-transformed ones. -/
theorem tpPen_correct (eigTop : ℝ) (ht : 0 < eigTop) (eigh : ℕ → Arr → (ℕ → ℝ) × Arr)
    (maxCol : Arr → ℕ) (ks : ℕ → ℕ) (j cs : ℕ) (S D : Arr) (d : ℕ) (con : Con) (scale : Bool)
    (hok : con.ok (∏ t ∈ range (d + 1), ks t))
    (hD : ∀ i < ks j, ∀ i' < ks j, gram cs D i i' = S i i')
    (S' D' : Arr) (nc : ℕ)
    (h : tpPen eigTop eigh maxCol ks j cs S D d (some con) scale = some (S', D', nc))
    (he : EighSpec ((∏ t ∈ range (d + 1), ks t) - 1) S'
      (eigh ((∏ t ∈ range (d + 1), ks t) - 1) S'))
    (hev : ∀ k < (∏ t ∈ range (d + 1), ks t) - 1,
      (eigh ((∏ t ∈ range (d + 1), ks t) - 1) S').1 k = 0 ∨
        tol < (eigh ((∏ t ∈ range (d + 1), ks t) - 1) S').1 k) :
    (∀ i < (∏ t ∈ range (d + 1), ks t) - 1, ∀ i' < (∏ t ∈ range (d + 1), ks t) - 1,
      ∑ l ∈ range nc, D' i l * D' i' l = S' i i') ∧
    ∀ γ, quad ((∏ t ∈ range (d + 1), ks t) - 1) S' γ
      = quad (∏ t ∈ range (d + 1), ks t) (tpKron ks j (ks j) (scaleS scale eigTop S) d)
          (mv ((∏ t ∈ range (d + 1), ks t) - 1) (backT (∏ t ∈ range (d + 1), ks t) con) γ) := by
  generalize hN : ∏ t ∈ range (d + 1), ks t = N at *
  have hroot : ∀ i < N, ∀ i' < N, gram (tpCols ks j cs d) (tpKron ks j cs (scaleD scale eigTop D) d)
      i i' = tpKron ks j (ks j) (scaleS scale eigTop S) d i i' := by
    intro i hi i' hi'
    exact tensor_root ks j cs _ _ (fun a ha b hb => scale_root scale eigTop ht cs S D a b
      (hD a ha b hb)) d i i' (by rw [hN]; exact hi) (by rw [hN]; exact hi')
  have hS : S' = absorbS N (tpCols ks j cs d) con (tpKron ks j (ks j) (scaleS scale eigTop S) d)
      (tpKron ks j cs (scaleD scale eigTop D) d) := by
    simp only [tpPen, hN] at h
    split_ifs at h <;> simp only [Option.some.injEq, Prod.mk.injEq] at h <;> exact h.1.symm
  -- absorbing only looks at entries inside the matrix
  have hcongr : ∀ i < N - 1, ∀ i' < N - 1, S' i i' = absorbS N (tpCols ks j cs d) con
      (gram (tpCols ks j cs d) (tpKron ks j cs (scaleD scale eigTop D) d))
      (tpKron ks j cs (scaleD scale eigTop D) d) i i' := by
    intro i hi i' hi'
    rw [hS]
    cases con with
    | qr Z =>
      simp only [absorbS]
      refine Finset.sum_congr rfl fun b hb => ?_
      congr 1
      refine Finset.sum_congr rfl fun a ha => ?_
      rw [hroot a (mem_range.1 ha) b (mem_range.1 hb)]
    | drop z =>
      simp only [absorbS]
      unfold del
      by_cases c1 : i < z <;> by_cases c2 : i' < z <;> simp only [c1, c2, if_true, if_false] <;>
        rw [hroot _ (by omega) _ (by omega)]
    | diff z => rfl
  constructor
  · intro i hi i' hi'
    have h' := h
    simp only [tpPen, hN] at h
    split_ifs at h with h1 h2
    · simp only [Option.some.injEq, Prod.mk.injEq] at h
      rw [← h.2.2, ← h.2.1, ← hS]
      exact eigRoot_exact (N - 1) S' _ he hev i i' hi hi'
    · simp only [Option.some.injEq, Prod.mk.injEq] at h
      rw [← h.2.2, ← h.2.1, hcongr i hi i' hi', absorbS_gram]
      rfl
  · intro γ
    rw [quad_congr (N - 1) S' _ hcongr, absorbS_quad N _ con hok]
    exact quad_congr N _ _ hroot _

/-! ### Concrete case: two margins with two and three coefficients -/

example (B : ℕ → Arr) (r : ℕ) :
    tpBasis (fun i => if i = 0 then 2 else 3) B 1 r 5 = B 0 r 1 * B 1 r 2 := by
  rw [tensor_basis _ _ _ _ _ (by norm_num [Finset.prod_range_succ])]
  norm_num [Finset.prod_range_succ, stride]

/-- First differences along the second margin: rows `(0, 1, 3)` and `(0, 0, 5)`, penalty
`1 + 4 + 25`. -/
example : quad 6 (tpKron (fun i => if i = 0 then 2 else 3) 1 3 (gram 2 (npDiff 1 eye)) 1)
    (fun x => if x = 1 then 1 else if x = 2 then 3 else if x = 5 then 5 else 0) = 30 := by
  have h := tensor_penalty (fun i => if i = 0 then 2 else 3) (gram 2 (npDiff 1 eye)) 1 1 le_rfl
    (fun t _ => by split_ifs <;> norm_num)
    (fun x => if x = 1 then 1 else if x = 2 then 3 else if x = 5 then 5 else 0)
  norm_num [Finset.prod_range_succ, stride] at h
  rw [h]
  simp only [Finset.sum_range_succ, Finset.sum_range_zero]
  rw [diff_quad (fun _ _ => (fun _ => 0, eye)) 3 1 _ _ 2 2 rfl,
    diff_quad (fun _ _ => (fun _ => 0, eye)) 3 1 _ _ 2 2 rfl]
  norm_num [Finset.sum_range_succ, mthDiff]

end Verif.Pen
