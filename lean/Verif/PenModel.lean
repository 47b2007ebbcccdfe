import Mathlib.Data.Real.Basic
import Mathlib.Analysis.SpecialFunctions.Pow.Real
import Mathlib.Algebra.BigOperators.Group.Finset.Basic

/-!
# Model of the penalty constructors and of absorbing identifiability constraints
(`penalties.py`: `DifferencePenalty.constructor` 496-581, `IdentityPenalty.constructor` 599-644;
`terms.py`: `f.build_matrix` 1227-1258; `formula.py`: `__absorb_constraints` 1587-1601)

A dense array is a function of row and column index; the dimensions are passed separately and only
indices inside the dimensions are meaningful.  The conversion to sparse triplets at the end of the
constructors is lossless (`translate_sparse`, see `Sparse.lean`) and left out here.
-/

namespace Verif.Pen

/-- Dense array. -/
abbrev Arr := ℕ → ℕ → ℝ

/-- One step of `np.diff` on a vector. -/
def diff1 (f : ℕ → ℝ) : ℕ → ℝ := fun j => f (j + 1) - f j

/-- `np.diff(A, m)` (last axis). -/
def npDiff (m : ℕ) (A : Arr) : Arr := fun i => diff1^[m] (A i)

/-- `np.identity`. -/
def eye : Arr := fun i j => if i = j then 1 else 0

/-- `A[:, j]` transposed: swap the axes. -/
def tr (A : Arr) : Arr := fun i j => A j i

/-- `D @ D.T` for `D` with `k` columns. -/
def gram (k : ℕ) (D : Arr) : Arr := fun i i' => ∑ j ∈ Finset.range k, D i j * D i' j

/-- `np.concatenate((f[a:n], f[:a]))`. -/
def rot {α : Type} (n a : ℕ) (f : ℕ → α) : ℕ → α :=
  fun i => if i < n - a then f (i + a) else f (i - (n - a))

/-- `np.delete(f, z)`. -/
def del {α : Type} (z : ℕ) (f : ℕ → α) : ℕ → α := fun i => if i < z then f i else f (i + 1)

/-- `Constraint`: type and `Z`. -/
inductive Con where
  | qr (Z : Arr)
  | drop (z : ℕ)
  | diff (z : ℕ)

/-- `constraint.type == ConstType.DIFF`. -/
def Con.isDiff : Con → Bool
  | .diff _ => true
  | _ => false

/-- Difference recoding of a vector of length `n` (1238-1258 for a row of the basis, 547-556 for a
column of the root): rotate, take differences, rotate back. -/
def recode (n z : ℕ) (f : ℕ → ℝ) : ℕ → ℝ := rot (n - 1) (n - 1 - z) (diff1 (rot n z f))

/-- Absorbing the constraint into the basis with `n` columns (terms.py 1227-1258). -/
def absorbB (n : ℕ) (con : Con) (B : Arr) : Arr :=
  match con with
  | .qr Z => fun r j => ∑ a ∈ Finset.range n, B r a * Z a j
  | .drop z => fun r => del z (B r)
  | .diff z => fun r => recode n z (B r)

/-- Absorbing the constraint into the root with `n` rows (532, 536, 547-556). -/
def absorbD (n : ℕ) (con : Con) (D : Arr) : Arr :=
  match con with
  | .qr Z => fun i j => ∑ a ∈ Finset.range n, Z a i * D a j
  | .drop z => del z D
  | .diff z => tr fun j => recode n z (tr D j)

/-- Absorbing the constraint into the penalty, `k` the number of columns of the root (531-557). -/
def absorbS (n k : ℕ) (con : Con) (S D : Arr) : Arr :=
  match con with
  | .qr Z => fun i j => ∑ b ∈ Finset.range n, (∑ a ∈ Finset.range n, Z a i * S a b) * Z b j
  | .drop z => del z fun i => del z (S i)
  | .diff z => gram k (absorbD n (.diff z) D)

/-- `sys.float_info.epsilon ** 0.7`. -/
noncomputable def tol : ℝ := ((2 : ℝ) ^ (-52 : ℤ)) ^ (0.7 : ℝ)

/-- `U @ np.diag([e ** 0.5 if e > tol else 0 for e in eig])` (562-571). -/
noncomputable def eigRoot (e : (ℕ → ℝ) × Arr) : Arr :=
  fun i j => e.2 i j * (if e.1 j > tol then Real.sqrt (e.1 j) else 0)

/-- `DifferencePenalty.constructor` (522-571): penalty, root, number of columns of the root, rank.
`eigh` is scipy's symmetric eigendecomposition.  `none` is the `ValueError` at 539. -/
noncomputable def diffPenalty (eigh : ℕ → Arr → (ℕ → ℝ) × Arr) (n m : ℕ) (con : Option Con) :
    Option (Arr × Arr × ℕ × ℕ) :=
  let D := npDiff m eye
  let S := gram (n - m) D
  let rank := n - m
  match con with
  | none => some (S, D, n - m, rank)
  | some con =>
    if con.isDiff ∧ m = 0 then none
    else
      let S' := absorbS n (n - m) con S D
      if m = 0 then some (S', eigRoot (eigh (n - 1) S'), n - 1, rank)
      else some (S', absorbD n con D, n - m, rank)

/-- `IdentityPenalty.constructor` (623-644): diagonal of the penalty, diagonal of the root, rank. -/
def identityPenalty (n : ℕ) (con : Option Con) (f : Option (ℕ → ℝ)) : (ℕ → ℝ) × (ℕ → ℝ) × ℕ :=
  let n := if con.isSome then n - 1 else n
  let el : ℕ → ℝ := fun i => match f with | none => 1 | some f => f (i + 1)
  (el, el, n)

/-- Quadratic form `v.T @ S @ v`. -/
def quad (n : ℕ) (S : Arr) (v : ℕ → ℝ) : ℝ :=
  ∑ i ∈ Finset.range n, ∑ j ∈ Finset.range n, v i * S i j * v j

/-- `A @ v`. -/
def mv (n : ℕ) (A : Arr) (v : ℕ → ℝ) : ℕ → ℝ := fun i => ∑ j ∈ Finset.range n, A i j * v j

/-- The constraint fixed in `__absorb_constraints` (formula.py 1587-1601) for a basis with `n`
columns and `N` rows.  `qr` is scipy's full QR decomposition of the vector of column sums, of which
the columns after the first are kept. -/
inductive Kind where
  | qr | drop | diff

def makeCon (qrQ : (ℕ → ℝ) → Arr) (n N : ℕ) (kind : Kind) (B : Arr) : Con :=
  match kind with
  | .qr =>
    let C := fun a => ∑ r ∈ Finset.range N, B r a
    let Q := qrQ C
    .qr fun a j => Q a (j + 1)
  | .drop => .drop (n / 2)
  | .diff => .diff (n / 2)

end Verif.Pen
