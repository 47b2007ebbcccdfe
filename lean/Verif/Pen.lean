import Verif.PenLemmas

/-!
# Difference penalties and identifiability constraints (properties C22, C23)
-/

namespace Verif.Pen

open Finset Polynomial

/-- A penalty as a matrix of Mathlib. -/
def toM (r c : ℕ) (A : Arr) : Matrix (Fin r) (Fin c) ℝ := Matrix.of fun i j => A i j

/-- The `m`-th differences of `v` written out. -/
def mthDiff (m : ℕ) (v : ℕ → ℝ) (j : ℕ) : ℝ :=
  ∑ k ∈ range (m + 1), (-1 : ℝ) ^ (m - k) * (m.choose k : ℝ) * v (j + k)

theorem diff_eq_mthDiff (m : ℕ) (v : ℕ → ℝ) (j : ℕ) : diff1^[m] v j = mthDiff m v j := by
  rw [diff_eq_fwd, fwdDiff_iter_eq_sum_shift, mthDiff]
  refine Finset.sum_congr rfl fun k _ => ?_
  simp only [smul_eq_mul, mul_one, zsmul_eq_mul]
  push_cast
  rfl

/-! ### C22: the difference penalty -/

variable (eigh : ℕ → Arr → (ℕ → ℝ) × Arr)

/-- The penalty of a coefficient vector is the sum of its squared `m`-th differences. -/
theorem diff_quad (n m : ℕ) (S D : Arr) (k rank : ℕ)
    (h : diffPenalty eigh n m none = some (S, D, k, rank)) (v : ℕ → ℝ) :
    quad n S v = ∑ j ∈ range (n - m), (mthDiff m v j) ^ 2 := by
  simp only [diffPenalty, Option.some.injEq, Prod.mk.injEq] at h
  obtain ⟨rfl, -⟩ := h
  rw [quad_gram]
  refine Finset.sum_congr rfl fun j hj => ?_
  rw [root_apply n m v j (mem_range.1 hj), diff_eq_mthDiff]

/-- Symmetric, and no coefficient vector has a negative penalty. -/
theorem diff_sym_psd (n m : ℕ) (S D : Arr) (k rank : ℕ)
    (h : diffPenalty eigh n m none = some (S, D, k, rank)) :
    (∀ i j, S i j = S j i) ∧ ∀ v, 0 ≤ quad n S v := by
  refine ⟨?_, fun v => ?_⟩
  · simp only [diffPenalty, Option.some.injEq, Prod.mk.injEq] at h
    obtain ⟨rfl, -⟩ := h
    intro i j
    exact Finset.sum_congr rfl fun l _ => mul_comm _ _
  · rw [diff_quad eigh n m S D k rank h v]
    exact Finset.sum_nonneg fun j _ => sq_nonneg _

/-- The root squares to the penalty. -/
theorem diff_root (n m : ℕ) (S D : Arr) (k rank : ℕ)
    (h : diffPenalty eigh n m none = some (S, D, k, rank)) (i j : ℕ) :
    ∑ l ∈ range k, D i l * D j l = S i j := by
  simp only [diffPenalty, Option.some.injEq, Prod.mk.injEq] at h
  obtain ⟨rfl, rfl, rfl, -⟩ := h
  rfl

/-- What is not penalised are exactly the polynomials of degree below `m` on the grid. -/
theorem diff_null (n m : ℕ) (S D : Arr) (k rank : ℕ)
    (h : diffPenalty eigh n m none = some (S, D, k, rank)) (v : ℕ → ℝ) :
    quad n S v = 0 ↔ ∃ P : ℝ[X], P.degree < (m : ℕ) ∧ ∀ i < n, v i = P.eval (i : ℝ) := by
  rw [← ker_iff, diff_quad eigh n m S D k rank h v,
    Finset.sum_eq_zero_iff_of_nonneg fun j _ => sq_nonneg _]
  constructor
  · intro h j hj
    rw [diff_eq_mthDiff]
    exact pow_eq_zero_iff (two_ne_zero) |>.1 (h j (mem_range.2 hj))
  · intro h j hj
    rw [← diff_eq_mthDiff, h j (mem_range.1 hj)]
    ring

theorem toM_gram (q k : ℕ) (D : Arr) :
    toM q q (gram k D) = toM q k D * (toM q k D).transpose := by
  ext i j
  rw [Matrix.mul_apply]
  simp only [toM, Matrix.of_apply, Matrix.transpose_apply, gram]
  rw [Finset.sum_range]

theorem mulVec_eq (q k : ℕ) (D : Arr) (v : Fin q → ℝ) (l : Fin k) :
    (toM q k D).transpose.mulVec v l = ∑ i ∈ range q, ext v i * D i l := by
  rw [Matrix.mulVec, dotProduct, Finset.sum_range]
  refine Finset.sum_congr rfl fun i _ => ?_
  rw [ext_apply, mul_comm]
  rfl

/-- The reported rank is the rank of the penalty. -/
theorem diff_rank (n m : ℕ) (hm : m ≤ n) (S D : Arr) (k rank : ℕ)
    (h : diffPenalty eigh n m none = some (S, D, k, rank)) :
    (toM n n S).rank = rank := by
  simp only [diffPenalty, Option.some.injEq, Prod.mk.injEq] at h
  obtain ⟨rfl, -, -, rfl⟩ := h
  rw [toM_gram]
  refine rank_gram _ m ?_
  suffices hk : LinearMap.ker (Matrix.mulVecLin (toM n (n - m) (npDiff m eye)).transpose)
      = nullS n m by rw [hk]; exact finrank_nullS n m hm
  ext v
  rw [LinearMap.mem_ker, mem_nullS, Matrix.mulVecLin_apply]
  constructor
  · intro h j hj
    have := congrFun h ⟨j, hj⟩
    rw [mulVec_eq, root_apply n m _ _ hj] at this
    exact this
  · intro h
    funext l
    rw [mulVec_eq, root_apply n m _ _ l.2]
    exact h l l.2

/-! ### C23: absorbing the constraint -/

/-- What a full QR decomposition of one column delivers: an orthogonal matrix whose first column
spans the vector. -/
structure QrSpec (n : ℕ) (C : ℕ → ℝ) (Q : Arr) : Prop where
  cols : ∀ i < n, ∀ j < n, ∑ k ∈ range n, Q k i * Q k j = if i = j then 1 else 0
  rows : ∀ i < n, ∀ j < n, ∑ k ∈ range n, Q i k * Q j k = if i = j then 1 else 0
  fac : ∃ r, ∀ a < n, C a = Q a 0 * r

/-- What the constraint asks of the coefficients `β` of the unconstrained basis `B` with `n` columns
and `N` rows: fitted values sum to zero, the middle coefficient is zero, coefficients sum to
zero. -/
def Holds (n N : ℕ) (kind : Kind) (B : Arr) (β : ℕ → ℝ) : Prop :=
  match kind with
  | .qr => ∑ r ∈ range N, ∑ a ∈ range n, B r a * β a = 0
  | .drop => β (n / 2) = 0
  | .diff => ∑ a ∈ range n, β a = 0

theorem makeCon_ok (qrQ : (ℕ → ℝ) → Arr) (n N : ℕ) (hn : 0 < n) (kind : Kind) (B : Arr) :
    (makeCon qrQ n N kind B).ok n := by
  cases kind
  · trivial
  · exact Nat.div_lt_self hn (by omega)
  · exact Nat.div_lt_self hn (by omega)

theorem qr_back (n : ℕ) (Q : Arr) (C : ℕ → ℝ) (hQ : QrSpec n C Q) (γ : ℕ → ℝ) (j : ℕ)
    (hj : j < n - 1) :
    ∑ a ∈ range n, Q a (j + 1) * mv (n - 1) (fun a j => Q a (j + 1)) γ a = γ j := by
  simp only [mv, Finset.mul_sum]
  rw [Finset.sum_comm]
  have e : ∀ l ∈ range (n - 1), ∑ a ∈ range n, Q a (j + 1) * (Q a (l + 1) * γ l)
      = if l = j then γ l else 0 := by
    intro l hl
    have := mem_range.1 hl
    have h := hQ.cols (j + 1) (by omega) (l + 1) (by omega)
    rw [show ∑ a ∈ range n, Q a (j + 1) * (Q a (l + 1) * γ l)
      = (∑ a ∈ range n, Q a (j + 1) * Q a (l + 1)) * γ l by
        rw [Finset.sum_mul]; exact Finset.sum_congr rfl fun a _ => by ring, h]
    by_cases hjl : l = j
    · subst hjl; simp
    · rw [if_neg (by omega), if_neg hjl, zero_mul]
  rw [Finset.sum_congr rfl e, Finset.sum_ite_eq']
  simp [hj]

/-- Coefficients reached by the constrained basis are those meeting the constraint. -/
theorem reached_iff (qrQ : (ℕ → ℝ) → Arr) (n N : ℕ) (hn : 0 < n) (kind : Kind) (B : Arr)
    (hQ : kind = .qr → QrSpec n (fun a => ∑ r ∈ range N, B r a)
      (qrQ fun a => ∑ r ∈ range N, B r a))
    (hC : kind = .qr → ∃ a < n, ∑ r ∈ range N, B r a ≠ 0) (β : ℕ → ℝ) :
    (∃ γ, ∀ a < n, β a = mv (n - 1) (backT n (makeCon qrQ n N kind B)) γ a) ↔
      Holds n N kind B β := by
  have hz : n / 2 < n := Nat.div_lt_self hn (by omega)
  cases kind with
  | drop =>
    simp only [makeCon, Holds]
    constructor
    · rintro ⟨γ, h⟩
      rw [h _ hz, backT_drop n _ _ hz hz, if_pos rfl]
    · intro h
      refine ⟨del (n / 2) β, fun a ha => ?_⟩
      rw [backT_drop n _ _ hz ha]
      by_cases h1 : a = n / 2
      · rw [if_pos h1, h1, h]
      · rw [if_neg h1]
        unfold del
        by_cases h2 : a < n / 2
        · simp only [if_pos h2]
        · simp only [if_neg h2]
          rw [if_neg (by omega), show a - 1 + 1 = a by omega]
  | diff =>
    simp only [makeCon, Holds]
    constructor
    · rintro ⟨γ, h⟩
      rw [Finset.sum_congr rfl fun a ha => h a (mem_range.1 ha)]
      exact diff_sum_zero n _ γ
    · intro h
      exact ⟨_, fun a ha => diff_surj n _ hz β h a ha⟩
  | qr =>
    have hQ := hQ rfl
    obtain ⟨a₀, ha₀, hC⟩ := hC rfl
    simp only [makeCon, Holds, backT]
    generalize hQe : (qrQ fun a => ∑ r ∈ range N, B r a) = Q at *
    obtain ⟨r, hr⟩ := hQ.fac
    have hr0 : r ≠ 0 := by
      rintro rfl
      exact hC (by rw [hr a₀ ha₀, mul_zero])
    have hsum : ∑ x ∈ range N, ∑ a ∈ range n, B x a * β a
        = r * ∑ a ∈ range n, Q a 0 * β a := by
      rw [Finset.sum_comm, Finset.mul_sum]
      refine Finset.sum_congr rfl fun a ha => ?_
      rw [← Finset.sum_mul, hr a (mem_range.1 ha)]
      ring
    rw [hsum, mul_eq_zero, or_iff_right hr0]
    constructor
    · rintro ⟨γ, h⟩
      rw [Finset.sum_congr rfl fun a ha => by rw [h a (mem_range.1 ha)]]
      simp only [mv, Finset.mul_sum]
      rw [Finset.sum_comm]
      refine Finset.sum_eq_zero fun j hj => ?_
      have := mem_range.1 hj
      have h0 := hQ.cols 0 hn (j + 1) (by omega)
      rw [if_neg (by omega)] at h0
      rw [show ∑ a ∈ range n, Q a 0 * (Q a (j + 1) * γ j)
        = (∑ a ∈ range n, Q a 0 * Q a (j + 1)) * γ j by
          rw [Finset.sum_mul]; exact Finset.sum_congr rfl fun a _ => by ring, h0, zero_mul]
    · intro h0
      refine ⟨fun j => ∑ b ∈ range n, Q b (j + 1) * β b, fun a ha => ?_⟩
      have e1 : β a = ∑ k ∈ range n, Q a k * ∑ b ∈ range n, Q b k * β b := by
        simp only [Finset.mul_sum]
        rw [Finset.sum_comm]
        have e : ∀ b ∈ range n, ∑ k ∈ range n, Q a k * (Q b k * β b)
            = if a = b then β b else 0 := by
          intro b hb
          rw [show ∑ k ∈ range n, Q a k * (Q b k * β b) = (∑ k ∈ range n, Q a k * Q b k) * β b by
            rw [Finset.sum_mul]; exact Finset.sum_congr rfl fun a _ => by ring,
            hQ.rows a ha b (mem_range.1 hb)]
          split_ifs <;> simp
        rw [Finset.sum_congr rfl e, Finset.sum_ite_eq]
        simp [ha]
      rw [e1]
      obtain ⟨n', rfl⟩ : ∃ n', n = n' + 1 := ⟨n - 1, by omega⟩
      rw [Finset.sum_range_succ' (fun k => Q a k * ∑ b ∈ range (n' + 1), Q b k * β b), h0,
        mul_zero, add_zero]
      rfl

theorem back_inj (qrQ : (ℕ → ℝ) → Arr) (n N : ℕ) (hn : 0 < n) (kind : Kind) (B : Arr)
    (hQ : kind = .qr → QrSpec n (fun a => ∑ r ∈ range N, B r a)
      (qrQ fun a => ∑ r ∈ range N, B r a)) (γ : ℕ → ℝ)
    (h : ∀ a < n, mv (n - 1) (backT n (makeCon qrQ n N kind B)) γ a = 0) :
    ∀ j < n - 1, γ j = 0 := by
  have hz : n / 2 < n := Nat.div_lt_self hn (by omega)
  cases kind with
  | drop => exact drop_inj n _ hz γ h
  | diff => exact diff_inj n _ hz γ h
  | qr =>
    intro j hj
    rw [← qr_back n _ _ (hQ rfl) γ j hj]
    refine Finset.sum_eq_zero fun a ha => ?_
    have := h a (mem_range.1 ha)
    simp only [makeCon, backT] at this
    rw [this, mul_zero]

/-- **C23.** The constraint fixed on the training basis `B` amounts to one linear map `T` from
constrained to unconstrained coefficients.  Predictions of the constrained basis at any covariate
values are those of the unconstrained basis at `T γ`; the constrained penalty of `γ` is the
unconstrained one of `T γ`; the constrained root squares to the constrained penalty; the vectors
reached are exactly those that meet the constraint, and no two `γ` lead to the same one. -/
theorem constraint_absorbed (qrQ : (ℕ → ℝ) → Arr) (n N : ℕ) (hn : 0 < n) (kind : Kind) (B : Arr)
    (hQ : kind = .qr → QrSpec n (fun a => ∑ r ∈ range N, B r a)
      (qrQ fun a => ∑ r ∈ range N, B r a))
    (hC : kind = .qr → ∃ a < n, ∑ r ∈ range N, B r a ≠ 0) :
    ∃ T : Arr,
      (∀ (B' : Arr) (γ : ℕ → ℝ) (r : ℕ),
        ∑ j ∈ range (n - 1), absorbB n (makeCon qrQ n N kind B) B' r j * γ j
          = ∑ a ∈ range n, B' r a * ∑ j ∈ range (n - 1), T a j * γ j) ∧
      (∀ (k : ℕ) (D : Arr) (γ : ℕ → ℝ),
        quad (n - 1) (absorbS n k (makeCon qrQ n N kind B) (gram k D) D) γ
          = quad n (gram k D) (fun a => ∑ j ∈ range (n - 1), T a j * γ j)) ∧
      (∀ (k : ℕ) (D : Arr) (i j : ℕ),
        ∑ l ∈ range k, absorbD n (makeCon qrQ n N kind B) D i l
            * absorbD n (makeCon qrQ n N kind B) D j l
          = absorbS n k (makeCon qrQ n N kind B) (gram k D) D i j) ∧
      (∀ β : ℕ → ℝ, (∃ γ : ℕ → ℝ, ∀ a < n, β a = ∑ j ∈ range (n - 1), T a j * γ j) ↔
        Holds n N kind B β) ∧
      (∀ γ γ' : ℕ → ℝ, (∀ a < n, ∑ j ∈ range (n - 1), T a j * γ j
          = ∑ j ∈ range (n - 1), T a j * γ' j) → ∀ j < n - 1, γ j = γ' j) := by
  have hok := makeCon_ok qrQ n N hn kind B
  refine ⟨backT n (makeCon qrQ n N kind B), ?_, ?_, ?_, ?_, ?_⟩
  · intro B' γ r
    exact absorbB_apply n _ hok B' γ r
  · intro k D γ
    exact absorbS_quad n k _ hok D γ
  · intro k D i j
    exact (absorbS_gram n k _ D i j).symm
  · intro β
    exact reached_iff qrQ n N hn kind B hQ hC β
  · intro γ γ' h j hj
    have := back_inj qrQ n N hn kind B hQ (fun j => γ j - γ' j) (fun a ha => by
      simp only [mv, mul_sub, Finset.sum_sub_distrib]
      rw [h a ha, sub_self]) j hj
    linarith

/-- Difference penalty with a constraint: the penalty of the constrained coefficients is the sum of
squared `m`-th differences of the unconstrained ones. -/
theorem diff_con_quad (n m : ℕ) (con : Con) (hok : con.ok n) (S D : Arr) (k rank : ℕ)
    (h : diffPenalty eigh n m (some con) = some (S, D, k, rank)) (γ : ℕ → ℝ) :
    quad (n - 1) S γ = ∑ j ∈ range (n - m), (mthDiff m (mv (n - 1) (backT n con) γ) j) ^ 2 := by
  have hS : S = absorbS n (n - m) con (gram (n - m) (npDiff m eye)) (npDiff m eye) := by
    simp only [diffPenalty] at h
    by_cases h1 : con.isDiff = true ∧ m = 0
    · rw [if_pos h1] at h; simp at h
    · rw [if_neg h1] at h
      by_cases h2 : m = 0
      · rw [if_pos h2] at h
        simp only [Option.some.injEq, Prod.mk.injEq] at h
        exact h.1.symm
      · rw [if_neg h2] at h
        simp only [Option.some.injEq, Prod.mk.injEq] at h
        exact h.1.symm
  rw [hS, absorbS_quad n _ con hok]
  exact diff_quad eigh n m (gram (n - m) (npDiff m eye)) (npDiff m eye) (n - m) (n - m)
    (by rfl) _

/-- What `scipy.linalg.eigh` delivers for a symmetric matrix. -/
structure EighSpec (q : ℕ) (A : Arr) (e : (ℕ → ℝ) × Arr) : Prop where
  cols : ∀ i < q, ∀ j < q, ∑ k ∈ range q, e.2 k i * e.2 k j = if i = j then 1 else 0
  rows : ∀ i < q, ∀ j < q, ∑ k ∈ range q, e.2 i k * e.2 j k = if i = j then 1 else 0
  fac : ∀ i < q, ∀ j < q, A i j = ∑ k ∈ range q, e.2 i k * e.1 k * e.2 j k

theorem tol_lt_one : tol < 1 := by
  unfold tol
  refine Real.rpow_lt_one (by positivity) ?_ (by norm_num)
  norm_num

/-- The root recomputed from the eigenvalues squares to the matrix whenever the matrix is the
identity. -/
theorem eigRoot_id (q : ℕ) (A : Arr) (hA : ∀ i < q, ∀ j < q, A i j = if i = j then 1 else 0)
    (e : (ℕ → ℝ) × Arr) (he : EighSpec q A e) (i j : ℕ) (hi : i < q) (hj : j < q) :
    ∑ l ∈ range q, eigRoot e i l * eigRoot e j l = A i j := by
  have hev : ∀ k < q, e.1 k = 1 := by
    intro k hk
    -- u_kᵀ A u_k computed twice
    have h1 : ∑ a ∈ range q, ∑ b ∈ range q, e.2 a k * A a b * e.2 b k = 1 := by
      have : ∀ a ∈ range q, ∑ b ∈ range q, e.2 a k * A a b * e.2 b k = e.2 a k * e.2 a k := by
        intro a ha
        rw [Finset.sum_eq_single a]
        · rw [hA a (mem_range.1 ha) a (mem_range.1 ha), if_pos rfl]; ring
        · intro b hb hba
          rw [hA a (mem_range.1 ha) b (mem_range.1 hb), if_neg (Ne.symm hba)]; ring
        · intro h; exact absurd ha h
      rw [Finset.sum_congr rfl this, he.cols k hk k hk, if_pos rfl]
    have h2 : ∑ a ∈ range q, ∑ b ∈ range q, e.2 a k * A a b * e.2 b k = e.1 k := by
      have : ∀ a ∈ range q, ∀ b ∈ range q, e.2 a k * A a b * e.2 b k
          = ∑ l ∈ range q, e.1 l * (e.2 a k * e.2 a l) * (e.2 b k * e.2 b l) := by
        intro a ha b hb
        rw [he.fac a (mem_range.1 ha) b (mem_range.1 hb), Finset.mul_sum, Finset.sum_mul]
        exact Finset.sum_congr rfl fun l _ => by ring
      rw [Finset.sum_congr rfl fun a ha => Finset.sum_congr rfl fun b hb => this a ha b hb]
      rw [Finset.sum_congr rfl fun a _ => Finset.sum_comm, Finset.sum_comm]
      have e2 : ∀ l ∈ range q, ∑ a ∈ range q, ∑ b ∈ range q,
          e.1 l * (e.2 a k * e.2 a l) * (e.2 b k * e.2 b l) = if k = l then e.1 l else 0 := by
        intro l hl
        have hc := he.cols k hk l (mem_range.1 hl)
        have : ∀ a ∈ range q, ∑ b ∈ range q, e.1 l * (e.2 a k * e.2 a l) * (e.2 b k * e.2 b l)
            = e.1 l * (e.2 a k * e.2 a l) * (if k = l then 1 else 0) := by
          intro a _
          rw [← Finset.mul_sum, hc]
        rw [Finset.sum_congr rfl this, ← Finset.sum_mul, ← Finset.mul_sum, hc]
        split_ifs <;> simp
      rw [Finset.sum_congr rfl e2, Finset.sum_ite_eq]
      simp [hk]
    rw [← h2, h1]
  rw [hA i hi j hj, ← he.rows i hi j hj]
  refine Finset.sum_congr rfl fun l hl => ?_
  have := hev l (mem_range.1 hl)
  simp only [eigRoot, this, if_pos tol_lt_one, Real.sqrt_one, mul_one]

/-- The root returned with a constraint squares to the returned penalty, for every order of the
differences (for order zero it is recomputed from an eigendecomposition). -/
theorem diff_con_root (qrQ : (ℕ → ℝ) → Arr) (n m N : ℕ) (hn : 0 < n) (kind : Kind) (B : Arr)
    (hQ : kind = .qr → QrSpec n (fun a => ∑ r ∈ range N, B r a)
      (qrQ fun a => ∑ r ∈ range N, B r a))
    (he : ∀ A, EighSpec (n - 1) A (eigh (n - 1) A) ∨ ∃ i < n - 1, ∃ j < n - 1, A i j ≠ A j i)
    (S D : Arr) (k rank : ℕ)
    (h : diffPenalty eigh n m (some (makeCon qrQ n N kind B)) = some (S, D, k, rank))
    (i j : ℕ) (hi : i < n - 1) (hj : j < n - 1) :
    ∑ l ∈ range k, D i l * D j l = S i j := by
  simp only [diffPenalty] at h
  by_cases h1 : (makeCon qrQ n N kind B).isDiff = true ∧ m = 0
  · rw [if_pos h1] at h; simp at h
  rw [if_neg h1] at h
  by_cases h2 : m = 0
  · rw [if_pos h2] at h
    simp only [Option.some.injEq, Prod.mk.injEq] at h
    obtain ⟨hS, hD, hk, -⟩ := h
    subst h2
    have hI : ∀ i < n - 1, ∀ j < n - 1, S i j = if i = j then 1 else 0 := by
      intro i hi j hj
      rw [← hS, absorbS_gram]
      simp only [Nat.sub_zero]
      cases kind with
      | diff => exact absurd ⟨rfl, rfl⟩ h1
      | qr =>
        have hQ := hQ rfl
        rw [show (if i = j then (1 : ℝ) else 0) = if i + 1 = j + 1 then 1 else 0 by simp,
          ← hQ.cols (i + 1) (by omega) (j + 1) (by omega)]
        simp only [gram, makeCon, absorbD, npDiff, Function.iterate_zero, id]
        refine Finset.sum_congr rfl fun l hl => ?_
        have e : ∀ i, ∑ a ∈ range n, qrQ (fun a => ∑ r ∈ range N, B r a) a i * eye a l
            = qrQ (fun a => ∑ r ∈ range N, B r a) l i := by
          intro i
          exact sum_pick n l (mem_range.1 hl) _
        rw [e, e]
      | drop =>
        simp only [gram, makeCon, absorbD, npDiff, Function.iterate_zero, id, del]
        have e : ∀ p < n, ∀ q < n, ∑ l ∈ range n, eye p l * eye q l = if p = q then 1 else 0 := by
          intro p hp q hq
          simp only [eye, ite_mul, one_mul, zero_mul, Finset.sum_ite_eq, mem_range, hp, if_true]
          by_cases hpq : p = q
          · rw [if_pos hpq, if_pos hpq.symm]
          · rw [if_neg hpq, if_neg (Ne.symm hpq)]
        by_cases ci : i < n / 2 <;> by_cases cj : j < n / 2 <;>
          simp only [ci, cj, if_true, if_false] <;>
          rw [e _ (by omega) _ (by omega)] <;>
          · by_cases hij : i = j
            · rw [if_pos (by omega), if_pos hij]
            · rw [if_neg (by omega), if_neg hij]
    rw [← hk, ← hD, hS]
    refine eigRoot_id (n - 1) S hI _ ?_ i j hi hj
    rcases he S with h | ⟨a, ha, b, hb, hab⟩
    · exact h
    · exfalso
      apply hab
      rw [hI a ha b hb, hI b hb a ha]
      by_cases hab' : a = b
      · rw [if_pos hab', if_pos hab'.symm]
      · rw [if_neg hab', if_neg (Ne.symm hab')]
  · rw [if_neg h2] at h
    simp only [Option.some.injEq, Prod.mk.injEq] at h
    obtain ⟨rfl, rfl, rfl, -⟩ := h
    exact (absorbS_gram n _ _ _ i j).symm

/-- The back-transformation as a linear map. -/
noncomputable def backL (n : ℕ) (con : Con) : (Fin (n - 1) → ℝ) →ₗ[ℝ] (Fin n → ℝ) :=
  Matrix.mulVecLin (toM n (n - 1) (backT n con))

theorem backL_apply (n : ℕ) (con : Con) (γ : Fin (n - 1) → ℝ) (a : Fin n) :
    backL n con γ a = mv (n - 1) (backT n con) (ext γ) a := by
  simp only [backL, Matrix.mulVecLin_apply, Matrix.mulVec, dotProduct, mv]
  rw [Finset.sum_range]
  refine Finset.sum_congr rfl fun j _ => ?_
  rw [ext_apply]
  rfl

/-- The functional of the constraint. -/
noncomputable def functional (n N : ℕ) (kind : Kind) (B : Arr) : (Fin n → ℝ) →ₗ[ℝ] ℝ :=
  match kind with
  | .qr => ∑ a : Fin n, (∑ r ∈ range N, B r a) • LinearMap.proj a
  | .drop => if h : n / 2 < n then LinearMap.proj ⟨n / 2, h⟩ else 0
  | .diff => ∑ a : Fin n, LinearMap.proj a

theorem functional_iff (n N : ℕ) (hn : 0 < n) (kind : Kind) (B : Arr) (β : Fin n → ℝ) :
    functional n N kind B β = 0 ↔ Holds n N kind B (ext β) := by
  have hz : n / 2 < n := Nat.div_lt_self hn (by omega)
  cases kind with
  | qr =>
    simp only [functional, Holds]
    rw [Finset.sum_comm, Finset.sum_range]
    simp only [LinearMap.sum_apply, LinearMap.smul_apply, LinearMap.proj_apply, smul_eq_mul, ext_apply,
      Finset.sum_mul]
  | drop =>
    simp only [functional, Holds, dif_pos hz, LinearMap.proj_apply]
    rw [show ext β (n / 2) = β ⟨n / 2, hz⟩ from ext_apply β ⟨n / 2, hz⟩]
  | diff =>
    simp only [functional, Holds]
    rw [Finset.sum_range]
    simp only [LinearMap.sum_apply, LinearMap.proj_apply, ext_apply]

/-- **C22/C23, rank.** With a constraint that does not hold for constant coefficient vectors the
reported rank is the rank of the constrained penalty, for differences of order one and above. -/
theorem diff_con_rank (qrQ : (ℕ → ℝ) → Arr) (n m N : ℕ) (hm : 1 ≤ m) (hmn : m ≤ n) (kind : Kind)
    (B : Arr)
    (hQ : kind = .qr → QrSpec n (fun a => ∑ r ∈ range N, B r a)
      (qrQ fun a => ∑ r ∈ range N, B r a))
    (hC : kind = .qr → ∑ a ∈ range n, ∑ r ∈ range N, B r a ≠ 0) (S D : Arr) (k rank : ℕ)
    (h : diffPenalty eigh n m (some (makeCon qrQ n N kind B)) = some (S, D, k, rank)) :
    (toM (n - 1) (n - 1) S).rank = rank := by
  have hn : 0 < n := by omega
  have hok := makeCon_ok qrQ n N hn kind B
  have hC' : kind = .qr → ∃ a < n, ∑ r ∈ range N, B r a ≠ 0 := by
    intro hk
    by_contra hcon
    push Not at hcon
    exact hC hk (Finset.sum_eq_zero fun a ha => hcon a (mem_range.1 ha))
  generalize hcon : makeCon qrQ n N kind B = con at *
  simp only [diffPenalty] at h
  rw [if_neg (by omega), if_neg (by omega)] at h
  simp only [Option.some.injEq, Prod.mk.injEq] at h
  obtain ⟨rfl, -, -, rfl⟩ := h
  rw [show absorbS n (n - m) con (gram (n - m) (npDiff m eye)) (npDiff m eye)
    = gram (n - m) (absorbD n con (npDiff m eye)) by
      funext i j; exact absorbS_gram n _ _ _ i j, toM_gram]
  have hker : LinearMap.ker (Matrix.mulVecLin
      (toM (n - 1) (n - m) (absorbD n con (npDiff m eye))).transpose)
      = (nullS n m).comap (backL n con) := by
    ext γ
    rw [LinearMap.mem_ker, Submodule.mem_comap, mem_nullS, Matrix.mulVecLin_apply]
    have key : ∀ l : Fin (n - m),
        (toM (n - 1) (n - m) (absorbD n con (npDiff m eye))).transpose.mulVec γ l
          = diff1^[m] (ext (backL n con γ)) l := by
      intro l
      rw [mulVec_eq, absorbD_apply n con hok, ← root_apply n m _ _ l.2]
      refine Finset.sum_congr rfl fun a ha => ?_
      rw [show ext (backL n con γ) a = backL n con γ ⟨a, mem_range.1 ha⟩ from
        ext_apply _ ⟨a, mem_range.1 ha⟩, backL_apply]
    constructor
    · intro h j hj
      rw [← key ⟨j, hj⟩, h]; rfl
    · intro h
      funext l
      rw [key l]; exact h l l.2
  have hinj : Function.Injective (backL n con) := by
    rw [← LinearMap.ker_eq_bot, LinearMap.ker_eq_bot']
    intro γ hγ
    funext j
    have := back_inj qrQ n N hn kind B hQ (ext γ) (fun a ha => by
      rw [hcon, ← backL_apply n con γ ⟨a, ha⟩, hγ]; rfl) j j.2
    rwa [ext_apply] at this
  have hrange : LinearMap.range (backL n con) = LinearMap.ker (functional n N kind B) := by
    ext β
    rw [LinearMap.mem_ker, functional_iff n N hn, ← reached_iff qrQ n N hn kind B hQ hC', hcon]
    constructor
    · rintro ⟨γ, rfl⟩
      refine ⟨ext γ, fun a ha => ?_⟩
      rw [show ext (backL n con γ) a = backL n con γ ⟨a, ha⟩ from ext_apply _ ⟨a, ha⟩, backL_apply]
    · rintro ⟨γ, h⟩
      refine ⟨fun j => γ j, ?_⟩
      funext a
      rw [← ext_apply β a, h a a.2, backL_apply]
      simp only [mv]
      refine Finset.sum_congr rfl fun j hj => ?_
      rw [show ext (fun j : Fin (n - 1) => γ j) j = γ j from
        ext_apply (fun j : Fin (n - 1) => γ j) ⟨j, mem_range.1 hj⟩]
  have hone : (fun _ => 1 : Fin n → ℝ) ∈ nullS n m := by
    refine ⟨⟨1, mem_degreeLT.2 ?_⟩, ?_⟩
    · rw [degree_one]; exact_mod_cast hm
    · funext i; rw [evalMap_apply]; simp
  have hne : functional n N kind B (fun _ => 1) ≠ 0 := by
    have hz : n / 2 < n := Nat.div_lt_self hn (by omega)
    cases kind with
    | qr =>
      simp only [functional, LinearMap.sum_apply, LinearMap.smul_apply, LinearMap.proj_apply, smul_eq_mul,
        mul_one]
      have := hC rfl
      rwa [Finset.sum_range] at this
    | drop => simp [functional, hz]
    | diff => simp [functional, hn.ne']
  have hd : Module.finrank ℝ (LinearMap.ker (Matrix.mulVecLin
      (toM (n - 1) (n - m) (absorbD n con (npDiff m eye))).transpose)) = m - 1 := by
    rw [hker, finrank_comap_inj _ hinj, hrange]
    have := finrank_cut (nullS n m) (functional n N kind B) _ hone hne
    rw [finrank_nullS n m hmn] at this
    omega
  rw [rank_gram _ (m - 1) hd]
  omega

/-- For order zero the reported rank exceeds the rank of every matrix of the size returned. -/
theorem diff_con_rank_zero_wrong (n : ℕ) (hn : 0 < n) (con : Con) (S D : Arr) (k rank : ℕ)
    (h : diffPenalty eigh n 0 (some con) = some (S, D, k, rank)) :
    (toM (n - 1) (n - 1) S).rank < rank := by
  have hr : rank = n := by
    simp only [diffPenalty] at h
    by_cases h1 : con.isDiff = true ∧ True
    · rw [if_pos h1] at h; simp at h
    · rw [if_neg h1, if_pos trivial] at h
      simp only [Option.some.injEq, Prod.mk.injEq] at h
      omega
  rw [hr]
  have := Matrix.rank_le_height (toM (n - 1) (n - 1) S)
  omega

/-! ### The identity penalty -/

/-- With sum-to-zero by QR or with a dropped coefficient the identity penalty of the constrained
coefficients is the identity penalty of the unconstrained ones. -/
theorem identity_absorbed (qrQ : (ℕ → ℝ) → Arr) (n N : ℕ) (hn : 0 < n) (kind : Kind) (B : Arr)
    (hk : kind ≠ .diff)
    (hQ : kind = .qr → QrSpec n (fun a => ∑ r ∈ range N, B r a)
      (qrQ fun a => ∑ r ∈ range N, B r a)) (γ : ℕ → ℝ) :
    ∑ i ∈ range (identityPenalty n (some (makeCon qrQ n N kind B)) none).2.2,
        (identityPenalty n (some (makeCon qrQ n N kind B)) none).1 i * γ i ^ 2
      = ∑ a ∈ range n, (mv (n - 1) (backT n (makeCon qrQ n N kind B)) γ a) ^ 2 := by
  simp only [identityPenalty, Option.isSome_some, if_true, one_mul]
  have hok := makeCon_ok qrQ n N hn kind B
  have key : ∀ j < n - 1, ∑ a ∈ range n, backT n (makeCon qrQ n N kind B) a j
      * mv (n - 1) (backT n (makeCon qrQ n N kind B)) γ a = γ j := by
    intro j hj
    cases kind with
    | diff => exact absurd rfl hk
    | qr => exact qr_back n _ _ (hQ rfl) γ j hj
    | drop =>
      have hz : n / 2 < n := Nat.div_lt_self hn (by omega)
      simp only [makeCon]
      have e : ∀ a ∈ range n, backT n (.drop (n / 2)) a j * mv (n - 1) (backT n (.drop (n / 2))) γ a
          = mv (n - 1) (backT n (.drop (n / 2))) γ a * (if a = hd (n / 2) j then 1 else 0) :=
        fun a _ => mul_comm _ _
      rw [Finset.sum_congr rfl e, sum_pick n _ (hd_lt n _ j hj),
        backT_drop n _ _ hz (hd_lt n _ j hj)]
      unfold hd
      by_cases h : j < n / 2
      · simp only [if_pos h]; rw [if_neg (by omega)]
      · simp only [if_neg h]
        rw [if_neg (by omega), if_neg (by omega), show j + 1 - 1 = j by omega]
  have e1 : ∀ a ∈ range n, (mv (n - 1) (backT n (makeCon qrQ n N kind B)) γ a) ^ 2
      = ∑ j ∈ range (n - 1), (backT n (makeCon qrQ n N kind B) a j
        * mv (n - 1) (backT n (makeCon qrQ n N kind B)) γ a) * γ j := by
    intro a _
    rw [sq]
    nth_rw 1 [mv]
    rw [Finset.sum_mul]
    exact Finset.sum_congr rfl fun j _ => by ring
  rw [Finset.sum_congr rfl e1, Finset.sum_comm]
  refine Finset.sum_congr rfl fun j hj => ?_
  rw [← Finset.sum_mul, key j (mem_range.1 hj)]
  ring

/-- With the difference recoding the identity penalty is not that of the unconstrained
coefficients. -/
theorem identity_diff_wrong :
    ∃ (n : ℕ) (γ : ℕ → ℝ) (qrQ : (ℕ → ℝ) → Arr) (B : Arr),
      ∑ i ∈ range (identityPenalty n (some (makeCon qrQ n 0 .diff B)) none).2.2,
        (identityPenalty n (some (makeCon qrQ n 0 .diff B)) none).1 i * γ i ^ 2
      ≠ ∑ a ∈ range n, (mv (n - 1) (backT n (makeCon qrQ n 0 .diff B)) γ a) ^ 2 := by
  refine ⟨2, fun _ => 1, fun _ _ _ => 0, fun _ _ => 0, ?_⟩
  simp only [identityPenalty, makeCon, Option.isSome_some, if_true]
  rw [Finset.sum_range_succ (n := 1), Finset.sum_range_one, Finset.sum_range_one,
    backT_diff 2 (2 / 2) 0 (by norm_num) (by norm_num),
    backT_diff 2 (2 / 2) 1 (by norm_num) (by norm_num)]
  norm_num

/-- With weights the root returned by the identity penalty does not square to it. -/
theorem identity_weighted_root_wrong :
    ∃ (n : ℕ) (f : ℕ → ℝ) (i : ℕ), i < n ∧ 0 < f (i + 1) ∧
      (identityPenalty n none (some f)).2.1 i * (identityPenalty n none (some f)).2.1 i
        ≠ (identityPenalty n none (some f)).1 i := by
  refine ⟨2, fun i => i, 1, by norm_num, by norm_num, ?_⟩
  simp only [identityPenalty]
  norm_num

/-! ### Concrete cases -/

/-- Second differences of the squares `0, 1, 4, 9` are `2, 2`, so the penalty is `8`. -/
example : quad 4 (gram 2 (npDiff 2 eye)) (fun i => (i : ℝ) ^ 2) = 8 := by
  rw [diff_quad (fun _ _ => (fun _ => 0, eye)) 4 2 _ _ 2 2 rfl]
  norm_num [Finset.sum_range_succ, mthDiff, Nat.choose]

/-- A straight line is not penalised by second differences. -/
example : quad 4 (gram 2 (npDiff 2 eye)) (fun i => 3 * (i : ℝ) + 1) = 0 := by
  rw [diff_null (fun _ _ => (fun _ => 0, eye)) 4 2 _ _ 2 2 rfl]
  refine ⟨C 3 * X + C 1, ?_, fun i _ => by simp⟩
  exact lt_of_le_of_lt (degree_linear_le (a := (3 : ℝ)) (b := 1)) (by norm_num)

/-- A QR decomposition of the column sums `(3, 4)`. -/
noncomputable def exQ : Arr := fun i j =>
  if i = 0 then (if j = 0 then 3 / 5 else -(4 / 5)) else (if j = 0 then 4 / 5 else 3 / 5)

/-- The hypotheses on the decomposition can be met: one row `(3, 4)`. -/
example : QrSpec 2 (fun a => ∑ _r ∈ range 1, if a = 0 then (3 : ℝ) else 4) exQ := by
  refine ⟨?_, ?_, ⟨5, ?_⟩⟩
  · intro i hi j hj
    interval_cases i <;> interval_cases j <;> norm_num [exQ, Finset.sum_range_succ]
  · intro i hi j hj
    interval_cases i <;> interval_cases j <;> norm_num [exQ, Finset.sum_range_succ]
  · intro a ha
    interval_cases a <;> norm_num [exQ]

/-- Difference recoding of three columns around the middle one. -/
example (f : ℕ → ℝ) : recode 3 1 f 0 = f 0 - f 2 ∧ recode 3 1 f 1 = f 2 - f 1 := by
  refine ⟨?_, ?_⟩
  · rw [recode_apply 3 1 0 f (by norm_num) (by norm_num)]; norm_num [hd, tl]
  · rw [recode_apply 3 1 1 f (by norm_num) (by norm_num)]; norm_num [hd, tl]

end Verif.Pen
