import Verif.BsplineModel
import Mathlib.Data.List.GetD

/-!
# Impulse response terms (property C106)

Model of src/mssm/src/python/terms.py: `build_ir_smooth_series` (2230-2328) and `irf.build_matrix` (2105-2177), with `B_spline_basis` (smooths.py 93-176) as basis.
`none` as a value is `nan`; `fftconvolve` of a column that contains `nan` is `nan` everywhere, otherwise it is the convolution. A matrix is a list of rows, a row a function
of the column.
-/

namespace Verif.Resp

open Verif

/-- A variable of the term: `min_c`, `max_c`, number of basis functions, degree, `convolve`. -/
structure Marg where
  minc : ℝ
  maxc : ℝ
  nk : ℕ
  deg : ℕ
  conv : Bool

/-- A series: number of rows, values of the variables (number of the variable, row), codes of the factor `by`. -/
structure Ser where
  len : ℕ
  cov : ℕ → ℕ → Option ℝ
  code : ℕ → ℕ

open Classical in
/-- `matrix_term_v` (2278-2290): row `i`, column `j` for variable `v`. -/
noncomputable def margEntry (m : Marg) (s : Ser) (v onset i j : ℕ) : Option ℝ :=
  if m.conv then
    if ∃ a < s.len, s.cov v a = none then none
    else some (Bspline.irMatrix m.minc m.maxc m.nk m.deg (fun a => (s.cov v a).getD 0) s.len onset i j)
  else (s.cov v i).map fun x => Bspline.basis m.minc m.maxc m.nk m.deg x j

/-- Product with `nan`. -/
noncomputable def mulN : Option ℝ → Option ℝ → Option ℝ
  | some x, some y => some (x * y)
  | _, _ => none

/-- `TP_basis_calc` (smooths.py 179-200) of a row with the row of variable `v`, and so on for the remaining variables (2292-2295). -/
noncomputable def tensor (s : Ser) (onset i : ℕ) : List Marg → ℕ → (ℕ → Option ℝ) → ℕ → Option ℝ
  | [], _, r, c => r c
  | m :: ms, v, r, c => tensor s onset i ms (v + 1) (fun c => mulN (r (c / m.nk)) (margEntry m s v onset i (c % m.nk))) c

/-- `matrix_term` (2264-2295), row `i`. -/
noncomputable def termRow (m : Marg) (ms : List Marg) (s : Ser) (onset i : ℕ) : ℕ → Option ℝ := tensor s onset i ms 1 fun c => margEntry m s 0 onset i c

/-- Columns of `matrix_term`. -/
def width (m : Marg) (ms : List Marg) : ℕ := m.nk * (ms.map (·.nk)).prod

open Classical in
/-- `final_term` (2299-2328); `levels`: number of levels of `by`; the result is `none` if the factor varies within the series. -/
noncomputable def serRows (m : Marg) (ms : List Marg) (levels : Option ℕ) (s : Ser) (onset : ℕ) : Option (List (ℕ → Option ℝ)) :=
  match levels with
  | none => some ((List.range s.len).map fun i => termRow m ms s onset i)
  | some _ =>
    if ∃ i < s.len, s.code i ≠ s.code 0 then none
    else some ((List.range s.len).map fun i c => if c / width m ms = s.code 0 then termRow m ms s onset i (c % width m ms) else some 0)

open Classical in
/-- Entries that are kept: `abs(final_col) > tol`, which is false for `nan` (2136, 2172). -/
noncomputable def keep (tol : ℝ) : Option ℝ → ℝ
  | some v => if |v| > tol then v else 0
  | none => 0

/-- `irf.build_matrix` (2119-2177) for `n` rows of data: series and event onsets are paired with `zip`; the rows that were built are looked up in the row numbers of the
data with a mask (2148, 2174), which raises if their numbers differ. With a pool the series are built in parallel. -/
noncomputable def build (m : Marg) (ms : List Marg) (levels : Option ℕ) (tol : ℝ) (n : ℕ) (sers : List Ser) (onsets : List ℕ) : Option (List (ℕ → ℝ)) :=
  match (sers.zip onsets).mapM fun p => serRows m ms levels p.1 p.2 with
  | none => none
  | some blocks =>
    let rows := blocks.flatten
    if rows.length = n then some (rows.map fun r c => keep tol (r c)) else none

end Verif.Resp
