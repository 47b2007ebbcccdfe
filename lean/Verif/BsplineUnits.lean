import Verif.Bspline
import Verif.Pen
import Verif.PirlsInv

/-!
# Smooths do not depend on units, origin and direction of their covariates (C132)
-/

namespace Verif.Bspline

open Finset

variable {xl xr : ℝ} {nk deg : ℕ}

/-! ### Units and origin -/

theorem tpower_affine {a : ℝ} (ha : 0 < a) (b x t : ℝ) (p : ℕ) : tpower (a * x + b) (a * t + b) p = a ^ p * tpower x t p := by
  unfold tpower
  have e : (a * x + b > a * t + b) ↔ x > t := by
    constructor
    · intro h; exact lt_of_mul_lt_mul_left (by linarith) ha.le
    · intro h; have := mul_lt_mul_of_pos_left h ha; linarith
  rw [if_congr e rfl rfl, show a * x + b - (a * t + b) = a * (x - t) from by ring, mul_pow, mul_assoc]

theorem bbase_affine {a : ℝ} (ha : 0 < a) (b x : ℝ) (t : ℕ → ℝ) (n : ℕ) (h : ℝ) (d j : ℕ) :
    bbase (a * x + b) (fun i => a * t i + b) n (a * h) d j = bbase x t n h d j := by
  unfold bbase
  congr 1
  refine Finset.sum_congr rfl fun k _ => ?_
  have h0 : a ^ d ≠ 0 := (pow_pos ha d).ne'
  rw [tpower_affine ha, mul_pow, show (d.factorial : ℝ) * (a ^ d * h ^ d) = a ^ d * ((d.factorial : ℝ) * h ^ d) from by ring,
    show a ^ d * tpower x (t k) d * (difI (d + 1) k j / (a ^ d * ((d.factorial : ℝ) * h ^ d)))
      = tpower x (t k) d * (a ^ d * difI (d + 1) k j / (a ^ d * ((d.factorial : ℝ) * h ^ d))) from by ring, mul_div_mul_left _ _ h0]

theorem linspace_affine (a b u v : ℝ) (n : ℕ) : linspace (a * u + b) (a * v + b) n = fun i => a * linspace u v n i + b := by
  funext i
  unfold linspace
  ring

/-- C132.  In other units and with another origin, `a * x + b` with `a > 0` instead of `x`, the boundaries changed alike, the basis is the same:
every column, every number of columns, every degree. -/
theorem basis_affine {a : ℝ} (ha : 0 < a) (b x : ℝ) (j : ℕ) :
    basis (a * xl + b) (a * xr + b) nk deg (a * x + b) j = basis xl xr nk deg x j := by
  unfold basis
  dsimp only
  have e : (a * xr + b - (a * xl + b)) / ((nk - deg : ℕ) : ℝ) = a * ((xr - xl) / ((nk - deg : ℕ) : ℝ)) := by ring
  rw [e, show a * xl + b - a * ((xr - xl) / ((nk - deg : ℕ) : ℝ)) * deg = a * (xl - (xr - xl) / ((nk - deg : ℕ) : ℝ) * deg) + b from by ring,
    show a * xr + b + a * ((xr - xl) / ((nk - deg : ℕ) : ℝ)) * deg = a * (xr + (xr - xl) / ((nk - deg : ℕ) : ℝ) * deg) + b from by ring,
    linspace_affine, bbase_affine ha]

/-- C132.  The same for impulse response bases. -/
theorem irMatrix_affine {a : ℝ} (ha : 0 < a) (b minc maxc : ℝ) (cov : ℕ → ℝ) (len onset i j : ℕ) :
    irMatrix (a * minc + b) (a * maxc + b) nk deg (fun r => a * cov r + b) len onset i j = irMatrix minc maxc nk deg cov len onset i j := by
  unfold irMatrix
  congr 1
  funext r
  unfold irBasis
  dsimp only
  rw [show (a * maxc + b - (a * minc + b)) / (((nk - deg : ℕ) : ℝ) + 2 * deg) = a * ((maxc - minc) / (((nk - deg : ℕ) : ℝ) + 2 * deg)) from by ring,
    linspace_affine, bbase_affine ha]

/-- C132.  Rows of tensor smooths: the margins can have units of their own. -/
theorem tensor_affine {a a' : ℝ} (ha : 0 < a) (ha' : 0 < a') (b b' x z zl zr : ℝ) (n2 deg' c : ℕ) :
    tpRow n2 (basis (a * xl + b) (a * xr + b) nk deg (a * x + b)) (basis (a' * zl + b') (a' * zr + b') n2 deg' (a' * z + b')) c =
      tpRow n2 (basis xl xr nk deg x) (basis zl zr n2 deg' z) c := by
  unfold tpRow
  rw [basis_affine ha, basis_affine ha']

/-! ### Direction -/

/-- Differences of a sequence read backwards. -/
theorem dif_rev (f : ℕ → ℝ) (M m : ℕ) : ∀ j, j + m ≤ M → dif^[m] (fun i => f (M - i)) j = (-1) ^ m * dif^[m] f (M - (j + m)) := by
  induction m with
  | zero => intro j _; simp
  | succ m ih =>
    intro j hj
    rw [dif_iter_succ, ih (j + 1) (by omega), ih j (by omega), dif_iter_succ, show M - (j + (m + 1)) + 1 = M - (j + m) from by omega,
      show M - (j + 1 + m) = M - (j + (m + 1)) from by omega]
    ring

theorem dif_sub (f g : ℕ → ℝ) (m : ℕ) : ∀ j, dif^[m] (fun i => f i - g i) j = dif^[m] f j - dif^[m] g j := by
  induction m with
  | zero => intro j; rfl
  | succ m ih => intro j; rw [dif_iter_succ, ih, ih, dif_iter_succ, dif_iter_succ]; ring

theorem dif_smul (c : ℝ) (f : ℕ → ℝ) (m : ℕ) : ∀ j, dif^[m] (fun i => c * f i) j = c * dif^[m] f j := by
  induction m with
  | zero => intro j; rfl
  | succ m ih => intro j; rw [dif_iter_succ, ih, ih, dif_iter_succ]; ring

/-- The truncated power on the other side of the knot. -/
theorem tpower_flip (x t : ℝ) {p : ℕ} (hp : 0 < p) : tpower (-x) (-t) p = (-1) ^ p * ((x - t) ^ p - tpower x t p) := by
  unfold tpower
  rw [show -x - -t = -1 * (x - t) from by ring, mul_pow]
  rcases lt_trichotomy x t with h | rfl | h
  · rw [if_pos (by linarith : -x > -t), if_neg (by linarith : ¬ x > t)]
    ring
  · simp [hp.ne']
  · rw [if_neg (by linarith : ¬ -x > -t), if_pos h]
    ring

/-- C132.  A covariate with its sign changed gives the same basis functions in reverse order (degree at least one), everywhere on the line. -/
theorem basis_mirror (hd : 0 < deg) (hk : deg < nk) (x : ℝ) {j : ℕ} (hj : j < nk) :
    basis (-xr) (-xl) nk deg (-x) j = basis xl xr nk deg x (nk - 1 - j) := by
  rw [basis_eq hk _ hj, basis_eq hk _ (by omega)]
  have hs : step (-xr) (-xl) nk deg = step xl xr nk deg := by unfold step; ring
  have hn : ((nk - deg : ℕ) : ℝ) ≠ 0 := by exact_mod_cast (Nat.sub_pos_of_lt hk).ne'
  have hst : xr = xl + ((nk : ℝ) - deg) * step xl xr nk deg := by
    have := hn
    rw [Nat.cast_sub hk.le] at this
    unfold step
    rw [Nat.cast_sub hk.le]
    field_simp
    ring
  have hkn : ∀ i, i ≤ nk + deg → knot (-xr) (-xl) nk deg i = -knot xl xr nk deg (nk + deg - i) := by
    intro i hi
    unfold knot
    rw [hs, Nat.cast_sub hi]
    push_cast
    linear_combination (-1 : ℝ) * hst
  unfold bs
  rw [hs]
  congr 2
  rw [dif_iter_congr (deg + 1) _ (fun i => (-1) ^ deg * ((fun l => (x - knot xl xr nk deg l) ^ deg - tpower x (knot xl xr nk deg l) deg) (nk + deg - i))) j
      (fun i h1 h2 => by dsimp only; rw [hkn i (by omega), tpower_flip _ _ hd]),
    dif_smul, dif_rev (fun l => (x - knot xl xr nk deg l) ^ deg - tpower x (knot xl xr nk deg l) deg) _ _ _ (by omega), dif_sub,
    (dif_pow (knot_even xl xr nk deg) x deg _).2, show nk + deg - (j + (deg + 1)) = nk - 1 - j from by omega, pow_succ]
  have : ((-1 : ℝ) ^ deg) * (-1) ^ deg = 1 := by rw [← mul_pow]; simp
  linear_combination (dif^[deg + 1] (fun i => tpower x (knot xl xr nk deg i) deg) (nk - 1 - j)) * this

/-- C132.  Of degree zero this fails in the knots: the pieces are closed on the right. -/
theorem mirror_zero_wrong : ∃ (xl xr x : ℝ) (nk j : ℕ), xl < xr ∧ j < nk ∧ x ∈ Set.Icc xl xr ∧
    basis (-xr) (-xl) nk 0 (-x) j ≠ basis xl xr nk 0 x (nk - 1 - j) := by
  refine ⟨0, 1, 0, 1, 0, zero_lt_one, zero_lt_one, ⟨le_rfl, zero_le_one⟩, ?_⟩
  rw [show 1 - 1 - 0 = 0 from rfl, basis_eq zero_lt_one _ zero_lt_one, basis_eq zero_lt_one _ zero_lt_one, bs_zero, bs_zero]
  have h : ¬ ((0 : ℝ) > 1) := by norm_num
  simp [knot, step, h]

/-! ### The whole matrix -/

/-- `B_spline_basis` (140-165) with `convolve=False` for a covariate with `n + 1` entries: boundaries are the smallest and largest entry unless
given. -/
noncomputable def bsplineBasis {n : ℕ} (minc maxc : Option ℝ) (nk deg : ℕ) (cov : Fin (n + 1) → ℝ) (i : Fin (n + 1)) (j : ℕ) : ℝ :=
  basis (minc.getD (univ.inf' univ_nonempty cov)) (maxc.getD (univ.sup' univ_nonempty cov)) nk deg (cov i) j

theorem inf_affine {n : ℕ} {a : ℝ} (ha : 0 < a) (b : ℝ) (cov : Fin (n + 1) → ℝ) :
    univ.inf' univ_nonempty (fun i => a * cov i + b) = a * univ.inf' univ_nonempty cov + b := by
  obtain ⟨k, -, hk⟩ := Finset.exists_mem_eq_inf' univ_nonempty cov
  refine le_antisymm ?_ (Finset.le_inf' _ _ fun i hi => ?_)
  · rw [hk]
    exact Finset.inf'_le _ (mem_univ k)
  · have := mul_le_mul_of_nonneg_left (Finset.inf'_le cov hi) ha.le
    linarith

theorem sup_affine {n : ℕ} {a : ℝ} (ha : 0 < a) (b : ℝ) (cov : Fin (n + 1) → ℝ) :
    univ.sup' univ_nonempty (fun i => a * cov i + b) = a * univ.sup' univ_nonempty cov + b := by
  obtain ⟨k, -, hk⟩ := Finset.exists_mem_eq_sup' univ_nonempty cov
  refine le_antisymm (Finset.sup'_le _ _ fun i hi => ?_) ?_
  · have := mul_le_mul_of_nonneg_left (Finset.le_sup' cov hi) ha.le
    linarith
  · rw [hk]
    exact Finset.le_sup' (fun i => a * cov i + b) (mem_univ k)

theorem inf_neg {n : ℕ} (cov : Fin (n + 1) → ℝ) : univ.inf' univ_nonempty (fun i => -cov i) = -univ.sup' univ_nonempty cov := by
  obtain ⟨k, -, hk⟩ := Finset.exists_mem_eq_sup' univ_nonempty cov
  refine le_antisymm ?_ (Finset.le_inf' _ _ fun i hi => neg_le_neg (Finset.le_sup' cov hi))
  rw [hk]
  exact Finset.inf'_le (fun i => -cov i) (mem_univ k)

theorem sup_neg {n : ℕ} (cov : Fin (n + 1) → ℝ) : univ.sup' univ_nonempty (fun i => -cov i) = -univ.inf' univ_nonempty cov := by
  have := inf_neg fun i => -cov i
  simp only [neg_neg] at this
  rw [this, neg_neg]

/-- C132.  `B_spline_basis` of a whole covariate in other units: the same matrix, with boundaries given (in the new units) or taken from the data. -/
theorem matrix_affine {n : ℕ} {a : ℝ} (ha : 0 < a) (b : ℝ) (minc maxc : Option ℝ) (cov : Fin (n + 1) → ℝ) :
    bsplineBasis (minc.map (a * · + b)) (maxc.map (a * · + b)) nk deg (fun i => a * cov i + b) = bsplineBasis minc maxc nk deg cov := by
  funext i j
  unfold bsplineBasis
  rw [inf_affine ha, sup_affine ha]
  cases minc <;> cases maxc <;> simp only [Option.map_none, Option.map_some, Option.getD_none, Option.getD_some] <;> exact basis_affine ha b _ j

/-- C132.  And of a covariate with its sign changed: columns in reverse order. -/
theorem matrix_mirror {n : ℕ} (hd : 0 < deg) (hk : deg < nk) (minc maxc : Option ℝ) (cov : Fin (n + 1) → ℝ) (i : Fin (n + 1)) {j : ℕ} (hj : j < nk) :
    bsplineBasis (maxc.map (- ·)) (minc.map (- ·)) nk deg (fun i => -cov i) i j = bsplineBasis minc maxc nk deg cov i (nk - 1 - j) := by
  unfold bsplineBasis
  rw [inf_neg, sup_neg]
  cases minc <;> cases maxc <;> simp only [Option.map_none, Option.map_some, Option.getD_none, Option.getD_some] <;> exact basis_mirror hd hk _ hj

end Verif.Bspline

namespace Verif.Pen

open Finset

/-- C132.  The difference penalty reads the same from both ends. -/
theorem diff_mirror (eigh : ℕ → Arr → (ℕ → ℝ) × Arr) (n m : ℕ) (S D : Arr) (k rank : ℕ)
    (h : diffPenalty eigh n m none = some (S, D, k, rank)) {i j : ℕ} (hi : i < n) (hj : j < n) : S (n - 1 - i) (n - 1 - j) = S i j := by
  simp only [diffPenalty, Option.some.injEq, Prod.mk.injEq] at h
  obtain ⟨rfl, -⟩ := h
  have hD : ∀ i < n, ∀ l < n - m, npDiff m eye (n - 1 - i) l = (-1) ^ m * npDiff m eye i (n - m - 1 - l) := by
    intro i hi l hl
    have := Bspline.dif_rev (eye i) (n - 1) m l (by omega)
    rw [show n - 1 - (l + m) = n - m - 1 - l from by omega] at this
    rw [show npDiff m eye i (n - m - 1 - l) = Bspline.dif^[m] (eye i) (n - m - 1 - l) from rfl, ← this]
    refine Bspline.dif_iter_congr m _ _ l fun q _ hq => ?_
    unfold eye
    exact if_congr (by omega) rfl rfl
  unfold gram
  rw [← Finset.sum_range_reflect]
  refine Finset.sum_congr rfl fun l hl => ?_
  have hl := mem_range.1 hl
  rw [hD i hi _ (by omega), hD j hj _ (by omega), show n - m - 1 - (n - m - 1 - l) = l from by omega]
  have : ((-1 : ℝ) ^ m) * (-1) ^ m = 1 := by rw [← mul_pow]; simp
  linear_combination (npDiff m eye i l * npDiff m eye j l) * this

end Verif.Pen

namespace Verif.PInv

open Matrix Pirls

variable {N p : ℕ} {x x' : In N p}

/-- C132.  Columns listed in another order, with the penalty listed likewise: the coefficients come in that order, the predictor is the same. -/
theorem columns (ρ : Equiv.Perm (Fin p)) (hf : x'.fam = x.fam) (hl : x'.lk = x.lk) (hy : x'.y = x.y) (ho : x'.off = x.off)
    (hX : ∀ i j, x'.X i j = x.X i (ρ j)) (hS : ∀ i j, x'.S i j = x.S (ρ i) (ρ j)) (m : ℕ) (c : Fin p → ℝ) :
    Pirls.inner x' m (c ∘ ρ) = (Pirls.inner x m c).map (· ∘ ρ) ∧
      (Pirls.inner x' m (c ∘ ρ)).map (eta x') = (Pirls.inner x m c).map (eta x) := by
  set A : Matrix (Fin p) (Fin p) ℝ := (1 : Matrix (Fin p) (Fin p) ℝ).submatrix id ρ with hA
  have hA2 : A * Aᵀ = 1 := by
    rw [hA, transpose_submatrix, transpose_one, submatrix_mul_equiv, Matrix.mul_one, submatrix_id_id]
  have hu : IsUnit A := IsUnit.of_mul_eq_one _ hA2
  have hX' : x'.X = x.X * A := by
    rw [hA, show x.X * (1 : Matrix (Fin p) (Fin p) ℝ).submatrix id ρ = (x.X.submatrix id (Equiv.refl _)) * (1 : Matrix (Fin p) (Fin p) ℝ).submatrix (Equiv.refl _) ρ
      from rfl, submatrix_mul_equiv, Matrix.mul_one]
    ext i j
    exact hX i j
  have hS' : x'.S = Aᵀ * x.S * A := by
    rw [hA, transpose_submatrix, transpose_one]
    rw [show (1 : Matrix (Fin p) (Fin p) ℝ).submatrix ρ id * x.S = (1 : Matrix (Fin p) (Fin p) ℝ).submatrix ρ (Equiv.refl _) * x.S.submatrix (Equiv.refl _) id
      from rfl, submatrix_mul_equiv, Matrix.one_mul,
      show x.S.submatrix ρ id * (1 : Matrix (Fin p) (Fin p) ℝ).submatrix id ρ = x.S.submatrix ρ (Equiv.refl _) * (1 : Matrix (Fin p) (Fin p) ℝ).submatrix (Equiv.refl _) ρ
      from rfl, submatrix_mul_equiv, Matrix.mul_one]
    ext i j
    exact hS i j
  have hx : x' = recomb A x := by
    cases x'
    cases x
    simp only [recomb] at *
    subst hf hl hy ho hX' hS'
    rfl
  have hv : ∀ b : Fin p → ℝ, A *ᵥ (b ∘ ρ) = b := by
    intro b
    rw [hA, show (b ∘ ρ : Fin p → ℝ) = b ∘ ρ from rfl]
    funext i
    simp only [mulVec, dotProduct, submatrix_apply, id_eq, Function.comp_apply, Matrix.one_apply]
    rw [Equiv.sum_comp ρ (fun j => (if i = j then (1 : ℝ) else 0) * b j)]
    simp
  have hw : ∀ b : Fin p → ℝ, (A *ᵥ b) ∘ ρ = b := by
    intro b
    have := hv (b ∘ ρ.symm)
    rw [show (b ∘ ρ.symm) ∘ ρ = b from by funext i; simp] at this
    rw [this]
    funext i
    simp
  obtain ⟨h1, h2⟩ := recombined (x := x) hu m (c ∘ ρ)
  rw [hv] at h1 h2
  rw [hx]
  refine ⟨?_, h2⟩
  rw [← h1, Option.map_map]
  rw [show ((fun b : Fin p → ℝ => b ∘ ρ) ∘ fun b => A *ᵥ b) = id from funext hw, Option.map_id, id]

/-- A smooth of `cov` in columns `o .. o+nk-1`: B-spline basis over `[xl, xr]`, difference penalty of order `q` with smoothing parameter `lam`,
nothing else in those rows and columns of the penalty. -/
structure Smooth (x : In N p) (o nk deg q : ℕ) (xl xr lam : ℝ) (cov : Fin N → ℝ) : Prop where
  fits : o + nk ≤ p
  X : ∀ i (j : Fin p), o ≤ j → j < o + nk → x.X i j = Bspline.basis xl xr nk deg (cov i) (j - o)
  S : ∀ i j : Fin p, o ≤ i → i < o + nk → o ≤ j → j < o + nk → x.S i j = lam * Pen.gram (nk - q) (Pen.npDiff q Pen.eye) (i - o) (j - o)
  cross : ∀ i j : Fin p, ¬ (o ≤ i ∧ i < o + nk ↔ o ≤ j ∧ j < o + nk) → x.S i j = 0

/-- Columns `o .. o+nk-1` in reverse order. -/
def flipAt (o nk : ℕ) (h : o + nk ≤ p) (j : Fin p) : Fin p := if hj : o ≤ j ∧ j.1 < o + nk then ⟨o + (nk - 1 - (j - o)), by omega⟩ else j

theorem flipAt_flipAt (o nk : ℕ) (h : o + nk ≤ p) (j : Fin p) : flipAt o nk h (flipAt o nk h j) = j := by
  unfold flipAt
  by_cases hj : o ≤ j ∧ j.1 < o + nk
  · rw [dif_pos hj, dif_pos (by dsimp only; omega)]
    apply Fin.ext
    dsimp only
    omega
  · rw [dif_neg hj, dif_neg hj]

def flipP (o nk : ℕ) (h : o + nk ≤ p) : Equiv.Perm (Fin p) := ⟨flipAt o nk h, flipAt o nk h, flipAt_flipAt o nk h, flipAt_flipAt o nk h⟩

/-- C132.  A model in which one smooth is given `-cov` instead of `cov`, everything else the same: same predictor after every number of passes,
coefficients of the smooth in reverse order. -/
theorem mirrored {o nk deg q : ℕ} {xl xr lam : ℝ} {cov : Fin N → ℝ} (hd : 0 < deg) (hk : deg < nk)
    (h : Smooth x o nk deg q xl xr lam cov) (h' : Smooth x' o nk deg q (-xr) (-xl) lam (fun i => -cov i))
    (hf : x'.fam = x.fam) (hl : x'.lk = x.lk) (hy : x'.y = x.y) (ho : x'.off = x.off)
    (hX : ∀ i (j : Fin p), ¬ (o ≤ j ∧ j.1 < o + nk) → x'.X i j = x.X i j)
    (hS : ∀ i j : Fin p, ¬ (o ≤ i ∧ i.1 < o + nk) → ¬ (o ≤ j ∧ j.1 < o + nk) → x'.S i j = x.S i j) (m : ℕ) (c : Fin p → ℝ) :
    Pirls.inner x' m (c ∘ flipAt o nk h.fits) = (Pirls.inner x m c).map (· ∘ flipAt o nk h.fits) ∧
      (Pirls.inner x' m (c ∘ flipAt o nk h.fits)).map (eta x') = (Pirls.inner x m c).map (eta x) := by
  refine columns (flipP o nk h.fits) hf hl hy ho (fun i j => ?_) (fun i j => ?_) m c
  · show x'.X i j = x.X i (flipAt o nk h.fits j)
    by_cases hj : o ≤ j ∧ j.1 < o + nk
    · rw [h'.X i j hj.1 hj.2, Bspline.basis_mirror hd hk _ (by omega)]
      unfold flipAt
      rw [dif_pos hj, h.X i _ (by dsimp only; omega) (by dsimp only; omega)]
      dsimp only
      congr 1
      omega
    · rw [hX i j hj]
      unfold flipAt
      rw [dif_neg hj]
  · show x'.S i j = x.S (flipAt o nk h.fits i) (flipAt o nk h.fits j)
    by_cases hi : o ≤ i ∧ i.1 < o + nk
    · by_cases hj : o ≤ j ∧ j.1 < o + nk
      · rw [h'.S i j hi.1 hi.2 hj.1 hj.2]
        unfold flipAt
        rw [dif_pos hi, dif_pos hj, h.S _ _ (by dsimp only; omega) (by dsimp only; omega) (by dsimp only; omega) (by dsimp only; omega)]
        dsimp only
        have := Pen.diff_mirror (fun _ _ => (fun _ => 0, fun _ _ => 0)) nk q _ _ _ _ rfl (i := i - o) (j := j - o) (by omega) (by omega)
        rw [show o + (nk - 1 - (i.1 - o)) - o = nk - 1 - (i - o) from by omega, show o + (nk - 1 - (j.1 - o)) - o = nk - 1 - (j - o) from by omega, this]
      · rw [h'.cross i j (fun e => hj (e.1 hi))]
        unfold flipAt
        rw [dif_pos hi, dif_neg hj, h.cross _ _ (fun e => hj (e.1 (by dsimp only; omega)))]
    · by_cases hj : o ≤ j ∧ j.1 < o + nk
      · rw [h'.cross i j (fun e => hi (e.2 hj))]
        unfold flipAt
        rw [dif_neg hi, dif_pos hj, h.cross _ _ (fun e => hi (e.2 (by dsimp only; omega)))]
      · rw [hS i j hi hj]
        unfold flipAt
        rw [dif_neg hi, dif_neg hj]

end Verif.PInv

namespace Verif.PInv

open Matrix Pirls

/-! ### Cases -/

/-- Linear B-splines with three columns, upper boundary from the data. -/
example (i : Fin 3) : Bspline.bsplineBasis none (some (-1)) 3 1 (fun i => -(![20, 15, 2] : Fin 3 → ℝ) i) i 0 =
    Bspline.bsplineBasis (some 1) none 3 1 ![20, 15, 2] i 2 := by
  have h := Bspline.matrix_mirror (nk := 3) (deg := 1) one_pos (by norm_num) (some 1) none (![20, 15, 2] : Fin 3 → ℝ) i (j := 0) (by norm_num)
  rw [Option.map_none, Option.map_some] at h
  exact h

/-- Fahrenheit and Celsius. -/
example : Bspline.bsplineBasis (some 32) none 10 3 (fun i => 9 / 5 * (![20, 15, 2] : Fin 3 → ℝ) i + 32) =
    Bspline.bsplineBasis (some 0) none 10 3 ![20, 15, 2] := by
  have h := Bspline.matrix_affine (nk := 10) (deg := 3) (a := 9 / 5) (by norm_num) 32 (some 0) none (![20, 15, 2] : Fin 3 → ℝ)
  rw [Option.map_none, Option.map_some, mul_zero, zero_add] at h
  exact h

/-- Poisson counts, an intercept and a smooth with three columns in columns 1 to 3. -/
noncomputable def ex (xl xr : ℝ) (cov : Fin 4 → ℝ) : In 4 4 where
  fam := fun _ => .poisson
  lk := .log
  y := ![1, 0, 2, 5]
  X := fun i j => if j = 0 then 1 else Bspline.basis xl xr 3 1 (cov i) (j - 1)
  off := 0
  S := fun i j => if i = 0 ∨ j = 0 then 0 else 2 * Pen.gram (3 - 2) (Pen.npDiff 2 Pen.eye) (i - 1) (j - 1)

theorem ex_smooth (xl xr : ℝ) (cov : Fin 4 → ℝ) : Smooth (ex xl xr cov) 1 3 1 2 xl xr 2 cov where
  fits := by norm_num
  X := fun i j h _ => if_neg (fun e => by rw [e] at h; simp at h)
  S := fun i j h _ h' _ => if_neg (fun e => by rcases e with e | e <;> [rw [e] at h; rw [e] at h'] <;> simp_all)
  cross := fun i j h => if_pos (by
    by_contra hh
    push Not at hh
    have h1 := Fin.val_ne_of_ne hh.1
    have h2 := Fin.val_ne_of_ne hh.2
    simp only [Fin.val_zero] at h1 h2
    exact h ⟨fun _ => by omega, fun _ => by omega⟩)

example (m : ℕ) (c : Fin 4 → ℝ) : (Pirls.inner (ex (-20) 0 (fun i => -(![0, 3, 15, 20] : Fin 4 → ℝ) i)) m (c ∘ flipAt 1 3 (by norm_num))).map
      (eta (ex (-20) 0 (fun i => -(![0, 3, 15, 20] : Fin 4 → ℝ) i))) =
    (Pirls.inner (ex 0 20 ![0, 3, 15, 20]) m c).map (eta (ex 0 20 ![0, 3, 15, 20])) :=
  (mirrored (x := ex 0 20 ![0, 3, 15, 20]) (x' := ex (-20) 0 (fun i => -(![0, 3, 15, 20] : Fin 4 → ℝ) i)) one_pos (by norm_num)
    (ex_smooth _ _ _) (by rw [neg_zero]; exact ex_smooth (-20) 0 _) rfl rfl rfl rfl
    (fun i j h => by
      have : j = 0 := by ext; simp only [Fin.val_zero]; omega
      subst this; rfl)
    (fun i j h _ => by
      have : i = 0 := by ext; simp only [Fin.val_zero]; omega
      subst this; rfl) m c).2

end Verif.PInv
