import Verif.EdfModel
import Verif.ParModel

/-!
# Traces computed without the inverse (property C114)

Model of the part of `compute_B` (src/mssm/src/python/matrix_solvers.py 654-687, 735-737) that selects the columns of the
embedded root.  It is used by `calculate_edf` (src/mssm/src/python/gamm_solvers.py 971-972) when the inverse of the factor is not
formed, which is the case for formulas with a clustered factor smooth (src/mssm/models.py 3262, 3360).  The sum over the
columns, in parallel or not, is `Par.computeB`.  Penalties are the `LTerm`s of `EmbedModel`.  Exact real arithmetic; no
coefficients dropped, because the decomposition must be "Chol" (src/mssm/models.py 3101-3104).
-/

namespace Verif.Bcol

open Verif.Pen

/-- `lTerm.S_J.sum(axis=0)` (662). -/
def colSum (q : LTerm) (c : ℕ) : ℝ := ∑ r ∈ Finset.range q.k, q.SJ r c

open Classical in
/-- `sum(col_sums[col_sums > 0]) == 1` (663). -/
def single (q : LTerm) : Prop := (∑ c ∈ Finset.range q.k, if 0 < colSum q c then colSum q c else 0) = 1

open Classical in
/-- `np.argmax(col_sums)` (666): the first maximum. -/
noncomputable def argmax (q : LTerm) : ℕ :=
  (List.range q.k).foldl (fun b c => if colSum q b < colSum q c then c else b) 0

/-- `np.arange(a, b, s)`. -/
def arange (a b s : ℕ) : List ℕ := (List.range ((b - a + s - 1) / s)).map fun t => a + s * t

open Classical in
/-- `D_idx` for `p` coefficients (663-684); `null` for `PenType.NULL`. -/
noncomputable def dIdx (p : ℕ) (null : Bool) (q : LTerm) : List ℕ :=
  if null = true ∧ single q then arange (q.start + argmax q) (q.k * (q.rep + 1)) q.k
  else (List.range p).filter fun c => q.start ≤ c ∧ c < q.start + q.rep * q.k

/-- `cpp_solve_tr(L, P @ d)` for `W` the inverse of the factor times the permutation. -/
def solve {p : ℕ} (W : Matrix (Fin p) (Fin p) ℝ) (d : ℕ → ℝ) : ℕ → ℝ :=
  fun i => if h : i < p then ∑ j, W ⟨i, h⟩ j * d j else 0

open Classical in
/-- `compute_B` without clusters.  `none`: an index is out of bounds (675, 685). -/
noncomputable def computeB {p : ℕ} (W : Matrix (Fin p) (Fin p) ℝ) (nc : ℕ) (null : Bool) (q : LTerm) : Option ℝ :=
  let I := dIdx p null q
  if ∃ c ∈ I, p ≤ c then none else Par.computeB (solve W) p nc (I.map fun c r => q.Demb r c)

end Verif.Bcol
