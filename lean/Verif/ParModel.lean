import Mathlib.Data.Real.Basic
import Mathlib.Algebra.BigOperators.Group.List.Basic
import Mathlib.Algebra.BigOperators.Group.Finset.Basic

/-!
# Model of computations split over worker processes
(`gamm_solvers.py`: `read_mmat` 3237-3337, `form_cross_prod_mp` 3340-3425, `read_XTX` 3428-3505,
`keep_XTX` 3508-3599, `form_eta_mp` 3602-3686, `read_eta` 3689-3762, `keep_eta` 3765-3832;
`matrix_solvers.py`: `compute_Linv` 864-924, `compute_B` 650-737; `models.py`: `GAMM.fit` 3180-3226)

`none` stands for an exception.  A row of the model matrix is a function of the column index.  For
terms that are not impulse response terms a row of the model matrix is built from the row of the
covariates, `build`.  `pool.starmap` is modelled by `starmap` below: the tasks run in any order and the
result of task `i` ends up at position `i`.
-/

namespace Verif.Par

variable {α β : Type}

/-- numpy slice `l[a:b]`. -/
def slice (l : List α) (a b : ℕ) : List α := (l.drop a).take (b - a)

/-- `section_sizes` of `np.array_split`. -/
def sizes (len n : ℕ) : List ℕ :=
  List.replicate (len % n) (len / n + 1) ++ List.replicate (n - len % n) (len / n)

/-- `np.array_split(l, n)`: `ValueError` for `n = 0`. -/
def arraySplit (l : List α) (n : ℕ) : Option (List (List α)) :=
  if n = 0 then none
  else some ((List.range n).map fun i =>
    slice l ((sizes l.length n).take i).sum ((sizes l.length n).take (i + 1)).sum)

/-- `pool.starmap`: the workers finish the tasks in the order `order`. -/
def starmap (order : List ℕ) (f : α → β) (tasks : List α) : List (Option β) :=
  order.foldl (fun res i => match tasks[i]? with
    | none => res
    | some t => res.set i (some (f t))) (List.replicate tasks.length none)

/-- `functools.reduce` on matrices or vectors; `none` is the `TypeError` for an empty list. -/
def reduce (add : α → α → α) : List α → Option α
  | [] => none
  | x :: xs => some (xs.foldl add x)

/-- `model_mat.T @ model_mat` (3423). -/
def crossXX (X : List (ℕ → ℝ)) : ℕ → ℕ → ℝ := fun i j => (X.map fun x => x i * x j).sum

/-- `model_mat.T @ y` (3422). -/
def crossXy (X : List (ℕ → ℝ)) (y : List ℝ) : ℕ → ℝ := fun i =>
  (List.zipWith (fun x v => x i * v) X y).sum

def addM (A B : ℕ → ℕ → ℝ) : ℕ → ℕ → ℝ := fun i j => A i j + B i j
def addV (a b : ℕ → ℝ) : ℕ → ℝ := fun i => a i + b i

/-- `read_XTX` (3467-3505) after reading the file: `X'X`, `X'y`, number of rows. -/
def readXTX (build : α → ℕ → ℝ) (nc : ℕ) (cov : List α) (y : List ℝ) :
    Option ((ℕ → ℕ → ℝ) × (ℕ → ℝ) × ℕ) := do
  let covs ← arraySplit cov (min nc cov.length)
  let ys ← arraySplit y (min nc cov.length)
  let res := List.zipWith (fun c v => (crossXX (c.map build), crossXy (c.map build) v)) covs ys
  let XX ← reduce addM (res.map (·.1))
  let Xy ← reduce addV (res.map (·.2))
  return (XX, Xy, y.length)

/-- `keep_XTX` (3545-3599): the rows are split by the number of files first. -/
def keepXTX (build : α → ℕ → ℝ) (files nc : ℕ) (cov : List α) (y : List ℝ) :
    Option ((ℕ → ℕ → ℝ) × (ℕ → ℝ)) := do
  let covs ← arraySplit cov files
  let ys ← arraySplit y files
  let parts ← (List.zip covs ys).mapM fun p => readXTX build nc p.1 p.2
  let XX ← reduce addM (parts.map (·.1))
  let Xy ← reduce addV (parts.map (·.2.1))
  return (XX, Xy)

/-- Entry of `model_mat @ coef` (3685); `p` columns. -/
def etaRow (build : α → ℕ → ℝ) (p : ℕ) (coef : ℕ → ℝ) (c : α) : ℝ :=
  ∑ j ∈ Finset.range p, build c j * coef j

/-- `read_eta` (3726-3762). -/
def readEta (build : α → ℕ → ℝ) (p nc : ℕ) (coef : ℕ → ℝ) (cov : List α) : Option (List ℝ) := do
  let covs ← arraySplit cov (min nc cov.length)
  return (covs.map fun c => c.map (etaRow build p coef)).flatten

/-- `keep_eta` (3793-3832). -/
def keepEta (build : α → ℕ → ℝ) (p files nc : ℕ) (coef : ℕ → ℝ) (cov : List α) :
    Option (List ℝ) := do
  let covs ← arraySplit cov files
  let parts ← covs.mapM fun c => readEta build p nc coef c
  return parts.flatten

/-- `build_sparse_matrix_from_formula` (formula.py 2608-2721) as far as the number of rows is
concerned.  `irf` holds the rows of the impulse response columns, built from all series (`cov`, not
`cov_flat`); indexing `ridx` with a mask of another length is an `IndexError` (terms.py 2148). -/
def buildMat (build : α → ℕ → ℝ) (irf : Option (List (ℕ → ℝ))) (cov : List α) :
    Option (List (ℕ → ℝ)) :=
  match irf with
  | none => some (cov.map build)
  | some rows => if rows.length = cov.length then
      some (List.zipWith (fun c r j => build c j + r j) cov rows) else none

/-- Building the model matrix in `GAMM.fit` (3180-3226). -/
def fitMat (build : α → ℕ → ℝ) (irf : Option (List (ℕ → ℝ))) (nc : ℕ) (cov : List α) :
    Option (List (ℕ → ℝ)) :=
  if nc = 1 then buildMat build irf cov
  else do
    let covs ← arraySplit cov nc
    let Xs ← covs.mapM (buildMat build irf)
    return Xs.flatten

/-- `compute_Linv` (878-924): columns of the identity, solved column by column. -/
def computeLinv {γ : Type} (solve : (ℕ → ℝ) → γ) (n nc : ℕ) : Option (List γ) :=
  let T : List (ℕ → ℝ) := (List.range n).map fun c r => if r = c then 1 else 0
  let r := n / 2000
  if r > 1 ∧ nc > 1 then do
    let split ← arraySplit (List.range n) (min r nc)
    return (split.map fun idx => (idx.filterMap (T[·]?)).map solve).flatten
  else some (T.map solve)

/-- `B.power(2).sum()` for `n` rows. -/
def sumSq (n : ℕ) (B : List (ℕ → ℝ)) : ℝ := (B.map fun b => ∑ i ∈ Finset.range n, b i ^ 2).sum

/-- `compute_B` from 687 on: `PD` are the columns of `P @ D`. -/
def computeB (solve : (ℕ → ℝ) → (ℕ → ℝ)) (n nc : ℕ) (PD : List (ℕ → ℝ)) : Option ℝ :=
  let r := PD.length / 2000
  if r > 1 ∧ nc > 1 then do
    let split ← arraySplit (List.range PD.length) (min r nc)
    return ((split.map fun idx => sumSq n ((idx.filterMap (PD[·]?)).map solve)).sum)
  else some (sumSq n (PD.map solve))

/-! ### Cache of model matrix pieces -/

/-- `s.split("/")[-1]`: what follows the last slash. -/
def afterSlash : List Char → List Char
  | [] => []
  | c :: s => if c = '/' then afterSlash s else if '/' ∈ s then afterSlash s else c :: s

/-- `s.split(".csv")[0]`: what precedes the first `.csv`. -/
def beforeCsv : List Char → List Char
  | [] => []
  | c :: s => if (c :: s).take 4 = ['.', 'c', 's', 'v'] then [] else c :: beforeCsv s

/-- Name of a data file in the cache (3297). -/
def name (file : List Char) : List Char := beforeCsv (afterSlash file)

/-- `name + f"_{fi}.npz"` (3297). -/
def target (nm : List Char) (fi : ℕ) : List Char :=
  nm ++ ['_'] ++ Nat.toDigits 10 fi ++ ['.', 'n', 'p', 'z']

/-- Cache directory: file names and contents. -/
abbrev Cache (M : Type) := List (List Char × M)

/-- `read_mmat` (3297-3337); `built` is the matrix built for sub-set `fi` of the file. -/
def readMmat {M : Type} (should : Bool) (cache : Cache M) (file : List Char) (fi : ℕ) (built : M) :
    M × Cache M :=
  if should = false then (built, cache)
  else match cache.find? (fun e => e.1 == target (name file) fi) with
    | none => (built, (target (name file) fi, built) :: cache)
    | some e => (e.2, cache)

/-- A sequence of calls. -/
def readMany {M : Type} (should : Bool) (mat : List Char → ℕ → M) :
    Cache M → List (List Char × ℕ) → List M × Cache M
  | cache, [] => ([], cache)
  | cache, (file, fi) :: rest =>
    let r := readMmat should cache file fi (mat file fi)
    let rs := readMany should mat r.2 rest
    (r.1 :: rs.1, rs.2)

/-! ### Column indices for null-space penalties (matrix_solvers.py 663-675) -/

/-- `np.arange(a, b, k)`. -/
def arange (a b k : ℕ) : List ℕ := (List.range ((b - a + (k - 1)) / k)).map fun r => a + r * k

/-- `D_idx` (668-672): `start` is `lTerm.start_index`, `k` is `S_J.shape[1]`. -/
def nullIdx (start k rep null : ℕ) : List ℕ := arange (start + null) (k * (rep + 1)) k

end Verif.Par
