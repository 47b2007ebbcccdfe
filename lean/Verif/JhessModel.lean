import Mathlib.Data.Real.Basic
import Mathlib.Data.List.Nodup

/-!
# Assembly of finite difference Hessians (property C48)

Model of `GSMMFamily.jhessian`, src/mssm/src/python/exp_fam.py (3739-3835).  The columns returned by
`jcolhessian` are a parameter; computing them in parallel (3789-3806) gives the same columns in the same order.
-/

namespace Verif.Jhess

/-- An entry of a sparse matrix in coordinate form: row, column, value. -/
abbrev Entry := ℕ × ℕ × ℝ

/-- Value of a sparse matrix in coordinate form: entries with equal coordinates are added up (`csc_array`, 3833). -/
def coo (es : List Entry) (r c : ℕ) : ℝ := (es.map fun e => if e.1 = r ∧ e.2.1 = c then e.2.2 else 0).sum

/-- `np.delete(np.arange(n), ccols)` (3813-3815, 3824-3826). -/
def kept (n : ℕ) (ccols : List ℕ) : List ℕ := (List.range n).filter fun i => decide (i ∉ ccols)

/-- Entries added for column `j` (3812-3830). -/
def addCol (n : ℕ) (col : ℕ → ℕ → ℝ) (ccols : List ℕ) (j : ℕ) : List Entry :=
  (kept n ccols).map (fun r => (r, j, col j r)) ++ (kept n (ccols ++ [j])).map (fun c => (j, c, col j c))

/-- Loop over the selected columns (3802-3830). -/
def loop (n : ℕ) (col : ℕ → ℕ → ℝ) : List ℕ → List ℕ → List Entry
  | _, [] => []
  | ccols, j :: js => addCol n col ccols j ++ loop n col (ccols ++ [j]) js

/-- `jhessian`: entry in row `r` and column `c`. -/
def jhessian (n : ℕ) (col : ℕ → ℕ → ℝ) (jcols : List ℕ) (r c : ℕ) : ℝ := coo (loop n col [] jcols) r c

end Verif.Jhess
