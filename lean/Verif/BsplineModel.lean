import Mathlib.Data.Real.Basic
import Mathlib.Data.Nat.Factorial.Basic
import Mathlib.Algebra.BigOperators.Group.Finset.Basic
import Mathlib.Data.Matrix.Basic

/-!
# B-spline bases (property C42)

Model of src/mssm/src/python/smooths.py with real arithmetic.  Rows of a matrix are functions of the column number,
the number of columns is kept apart.  `fftconvolve` is taken to be the convolution it computes up to rounding.
-/

namespace Verif.Bspline

open Finset

/-- `tpower`, smooths.py (41-59): `(x - t)^p * (x > t)`. -/
noncomputable def tpower (x t : ℝ) (p : ℕ) : ℝ := (x - t) ^ p * (if x > t then 1 else 0)

/-- One difference along the columns of a row, as in `np.diff` (85). -/
def dif (f : ℕ → ℝ) : ℕ → ℝ := fun j => f (j + 1) - f j

/-- `np.diff(np.identity(n), n=m)` (85): row `k`, column `j`. -/
def difI (m k : ℕ) : ℕ → ℝ := dif^[m] (fun j => if k = j then 1 else 0)

/-- `bbase`, smooths.py (62-89), one row: covariate value `x`, `n` knots, column `j < n - (deg + 1)`. -/
noncomputable def bbase (x : ℝ) (knots : ℕ → ℝ) (n : ℕ) (dx : ℝ) (deg : ℕ) (j : ℕ) : ℝ :=
  (-1) ^ (deg + 1) * ∑ k ∈ range n, tpower x (knots k) deg * (difI (deg + 1) k j / ((deg.factorial : ℝ) * dx ^ deg))

/-- `np.linspace(a, b, n)`, entry `i`. -/
noncomputable def linspace (a b : ℝ) (n : ℕ) (i : ℕ) : ℝ := a + (i : ℝ) * ((b - a) / ((n : ℝ) - 1))

/-- `B_spline_basis` (140-165) with `convolve=False`, one row.  `xl` and `xr` are the boundaries after lines 140-147.
The result has `nk` columns. -/
noncomputable def basis (xl xr : ℝ) (nk deg : ℕ) (x : ℝ) (j : ℕ) : ℝ :=
  let ndx := nk - deg
  let dx := (xr - xl) / (ndx : ℝ)
  bbase x (linspace (xl - dx * deg) (xr + dx * deg) (ndx + 1 + 2 * deg)) (ndx + 1 + 2 * deg) dx deg j

/-- `B_spline_basis` with `convolve=True`: basis before the convolution (155-165), `min_c` and `max_c` given. -/
noncomputable def irBasis (minc maxc : ℝ) (nk deg : ℕ) (x : ℝ) (j : ℕ) : ℝ :=
  let ndx := nk - deg
  let dx := (maxc - minc) / ((ndx : ℝ) + 2 * deg)
  bbase x (linspace minc maxc (ndx + 1 + 2 * deg)) (ndx + 1 + 2 * deg) dx deg j

/-- `spike`, smooths.py (30-31): entry `i` of a vector of length `loc + 1`. -/
def spike (loc i : ℕ) : ℝ := if i = loc then 1 else 0

/-- `convolve_event`, smooths.py (7-35): full convolution of `f` (length `len`) with the spike (length `loc + 1`), entry `i`. -/
def convolveEvent (f : ℕ → ℝ) (len loc i : ℕ) : ℝ :=
  ∑ a ∈ range len, ∑ b ∈ range (loc + 1), if a + b = i then f a * spike loc b else 0

/-- `B_spline_basis` with `convolve=True` (167-174): entry in row `i`, column `j`; `cov` has `len` entries. -/
noncomputable def irMatrix (minc maxc : ℝ) (nk deg : ℕ) (cov : ℕ → ℝ) (len onset i j : ℕ) : ℝ :=
  convolveEvent (fun a => irBasis minc maxc nk deg (cov a) j) len onset i

/-- `TP_basis_calc`, smooths.py (179-200), one row: column `a * n2 + b` holds the product. -/
def tpRow (n2 : ℕ) (r1 r2 : ℕ → ℝ) (c : ℕ) : ℝ := r1 (c / n2) * r2 (c % n2)

end Verif.Bspline
