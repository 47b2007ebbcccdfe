import Verif.EncodeModel
import Mathlib.Data.Real.Basic
import Mathlib.Data.String.Basic

/-!
# Reading covariates from several files (property C51)

Model of src/mssm/src/python/file_loading.py, of the parts of `Formula.__encode_var` (src/mssm/src/python/formula.py 700-759)
and of `Formula.encode_data` (911-943) that differ between data held in memory and data in files, and of the calls of `read_csv` in
src/mssm/src/python/gamm_solvers.py (3458, 3720, 3962).  A file holds a list of rows; missing values are `none`; `starmap` keeps the order.
-/

namespace Verif.Files

/-- A row: value of every numeric and of every factor column. -/
structure Row where
  num : String → Option ℝ
  fac : String → Option String

/-- `read_cov_no_cor` (125-149) for a column `x`. -/
def readNoCor {V : Type} (x : Row → V) (files : List (List Row)) : List V :=
  ((files.map fun f => f.map x)).flatMap id

/-- `read_cov` (57-105): rows in which `y` is missing are left out. -/
def readCov {V : Type} (y : Row → Option ℝ) (x : Row → V) (files : List (List Row)) : List V :=
  (files.map fun f => (f.filter fun r => (y r).isSome).map x).flatMap id

/-- `np.unique` of a numeric column of one file (24-27): missing values appear once. Its order does not matter below. -/
noncomputable def uniqueNum (col : List (Option ℝ)) : List (Option ℝ) := open Classical in col.dedup

/-- `np.unique` of a factor column of one file (24-27): comparing strings with missing values raises an error (`none`). -/
def uniqueFac (col : List (Option String)) : Option (List (Option String)) :=
  if col.any Option.isNone && col.any Option.isSome then none else some col.dedup

/-- All or nothing. -/
def collect {V : Type} : List (Option V) → Option (List V)
  | [] => some []
  | a :: as => match a, collect as with | some x, some xs => some (x :: xs) | _, _ => none

/-- `read_unique` (30-54) for a factor: the union is held in a set, `enum` is the order in which the set is listed. -/
def readUniqueFac (enum : List (Option String) → List (Option String)) (x : Row → Option String) (files : List (List Row)) :
    Option (List (Option String)) :=
  (collect (files.map fun f => uniqueFac (f.map x))).map fun us => enum (us.flatMap id).dedup

/-- `read_unique` for a numeric column. -/
noncomputable def readUniqueNum (x : Row → Option ℝ) (files : List (List Row)) : List (Option ℝ) := open Classical in
  ((files.map fun f => uniqueNum (f.map x)).flatMap id).dedup

/-- Values present. -/
def present {V : Type} (l : List (Option V)) : List V := l.filterMap id

/-- `np.min(unique_var)` (formula.py 714): missing when a value is missing. -/
noncomputable def fileMin (x : Row → Option ℝ) (files : List (List Row)) : Option ℝ :=
  let u := readUniqueNum x files
  if u.any Option.isNone then none else (present u).min?

/-- `np.max(unique_var)` (formula.py 715). -/
noncomputable def fileMax (x : Row → Option ℝ) (files : List (List Row)) : Option ℝ :=
  let u := readUniqueNum x files
  if u.any Option.isNone then none else (present u).max?

/-- `np.nanmin(self.data[var])` (formula.py 705). -/
noncomputable def memMin (x : Row → Option ℝ) (data : List Row) : Option ℝ := (present (data.map x)).min?

/-- `np.nanmax(self.data[var])` (formula.py 706). -/
noncomputable def memMax (x : Row → Option ℝ) (data : List Row) : Option ℝ := (present (data.map x)).max?

/-- Levels for data in memory (formula.py 723-729). -/
def memLevels (x : Row → Option String) (data : List Row) : List String := Verif.Encode.levels (data.map x)

/-- Rows kept, data in files (formula.py 915-923): only the response is looked at. -/
def fileKeep (y : String) (files : List (List Row)) : List Bool := (readNoCor (fun r => r.num y) files).map Option.isSome

/-- Rows kept, data in memory (formula.py 925-943): the response and all covariates. -/
def memKeep (y : String) (nums facs : List String) (data : List Row) : List Bool :=
  data.map fun r => (r.num y).isSome && nums.all (fun v => (r.num v).isSome) && facs.all (fun v => (r.fac v).isSome)

/-- Setting up the formula parses a file with `file_loading_kwargs` (file_loading.py 24, 73, 120, 165). -/
def setupRows {F K : Type} (parse : Option K → F → List Row) (kwargs : Option K) (file : F) : List Row := parse kwargs file

/-- Accumulating cross-products and linear predictors parses it without (gamm_solvers.py 3458, 3720, 3962). -/
def fitRows {F K : Type} (parse : Option K → F → List Row) (_kwargs : Option K) (file : F) : List Row := parse none file

end Verif.Files
