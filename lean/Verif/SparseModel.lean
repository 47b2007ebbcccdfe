import Verif.EmbedModel

/-!
# Model of sparse conversions, padding and permutations
(`matrix_solvers.py`: `map_csc_to_eigen` 11-56, `translate_sparse` 94-132, `compute_eigen_perm`
135-148, `apply_eigen_perm` 151-166; `gamm_solvers.py`: padding 1192-1201, 1495-1507, 5481-5489,
5553-5571, unpivoting in `update_coef` 1299-1332; `penalties.py`: `adjust_pen_drop` 174-225)
-/

namespace Verif.Sp

open Verif.Pen

/-- `scp.sparse.csc_array`: the three arrays and the shape; `sorted` is `has_sorted_indices`. -/
structure Csc where
  rows : ℕ
  cols : ℕ
  data : List ℝ
  indptr : List ℕ
  indices : List ℕ
  sorted : Bool

/-- numpy slice `l[a:b]`. -/
def slice {α : Type*} (l : List α) (a b : ℕ) : List α := (l.drop a).take (b - a)

/-- Loop of `translate_sparse` (119-132): data, rows, cols. -/
def translate (M : Csc) : List ℝ × List ℕ × List ℕ :=
  (List.range M.cols).foldl (fun st ci =>
    let cData := slice M.data (M.indptr.getD ci 0) (M.indptr.getD (ci + 1) 0)
    let cRows := slice M.indices (M.indptr.getD ci 0) (M.indptr.getD (ci + 1) 0)
    (st.1 ++ cData, st.2.1 ++ cRows, st.2.2 ++ List.replicate cRows.length ci)) ([], [], [])

/-- Coordinate lists from separate lists, as passed to `scp.sparse.csc_array((data, (rows, cols)))`. -/
def zip3 (t : List ℝ × List ℕ × List ℕ) : Trip :=
  List.zipWith (fun d rc => (rc.1, rc.2, d)) t.1 (t.2.1.zip t.2.2)

/-- What is handed to C++ (`rows, cols, nnz, data, indptr, indices`). -/
structure Eig where
  rows : ℕ
  cols : ℕ
  nnz : ℕ
  data : List ℝ
  outer : List ℕ
  inner : List ℕ

/-- `map_csc_to_eigen` (36-56); `none` is the `TypeError` for unsorted indices.  The check of the
format is not modelled: a `Csc` has the format. -/
def mapCsc (M : Csc) : Option Eig :=
  if M.sorted = false then none
  else some ⟨M.rows, M.cols, M.indptr.getD M.cols 0, M.data, M.indptr, M.indices⟩

/-- Padding with zero rows and columns (1194-1201, 1500-1507, 5484-5489, 5558-5571). -/
def pad (keep : List ℕ) (M : Csc) : Arr :=
  let t := translate M
  coo (zip3 (t.1, t.2.1.map (keep.getD · 0), t.2.2.map (keep.getD · 0)))

/-- `compute_eigen_perm` (144-148). -/
def perm (Pr : List ℕ) : Arr :=
  coo (zip3 (List.replicate Pr.length 1, Pr, List.range Pr.length))

/-- Matrix product with inner dimension `n`. -/
def mul (n : ℕ) (A B : Arr) : Arr := fun i j => ∑ l ∈ Finset.range n, A i l * B l j

/-- `apply_eigen_perm` (164-166). -/
def applyPerm (Pr : List ℕ) (M : Arr) : Arr := mul Pr.length M (perm Pr)

/-- `adjust_pen_drop` (200-225): entries kept and realigned, and the number of dropped columns. -/
def adjustDrop (T : Trip) (drop : List ℕ) (offset : ℕ) : Trip × ℕ :=
  let drop' := drop.filter fun d => (T.map fun t => t.2.1 + offset).contains d
  let re := fun x => drop'.foldl (fun acc d => if d < x + offset then acc - 1 else acc) x
  (((T.filter fun t => !drop'.contains (t.2.1 + offset) && !drop'.contains (t.1 + offset)).map
      fun t => (re t.1, re t.2.1, t.2.2)), drop'.length)

/-- Unpivoting in `update_coef` (1306-1320): `coef` has length `rank`, is extended by nan (`none`)
to length `n` and multiplied by the permutation matrix whose entry `(r, c)` is one if `Pr[c] = r`. -/
def unpivot (Pr : List ℕ) (coef : List ℝ) : List (Option ℝ) := Pr.map fun r => coef[r]?

/-- `keep` (1317). -/
def keepOf (c : List (Option ℝ)) : List ℕ :=
  (List.range c.length).filter fun i => (c.getD i none).isSome

/-- `coef[drop] = 0` (1320). -/
noncomputable def zeroed (c : List (Option ℝ)) : List ℝ := c.map (·.getD 0)

/-- `P[:, keep]`, translated (1330-1331): the rows of the kept columns. -/
def keptPr (Pr : List ℕ) (keep : List ℕ) : List ℕ := keep.map (Pr.getD · 0)

end Verif.Sp
