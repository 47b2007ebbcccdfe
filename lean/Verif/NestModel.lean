import Mathlib.Data.Real.Basic
import Mathlib.Data.Matrix.Mul
import Mathlib.Order.Interval.Finset.Nat
import Mathlib.Algebra.BigOperators.Group.Finset.Basic

/-!
# Model of the search for nested smooth terms
(`formula.py`: `Formula.__fix_nested` 1668-1948; `eigen_solvers.cpp`: `id_dependencies` 758-815)

A model matrix is the list of its columns; rows are those with an available response. The matrices of all terms and levels
(1736-1873) are inputs: `f.build_matrix` without dropped coefficients (C43, C102).
-/

namespace Verif.Nest

/-- Column of a matrix with `N` rows. -/
abbrev Col (N : ℕ) := Fin N → ℝ

/-- Attributes of a smooth term that matter here: variables, levels of the `by` factor, `binary`, `by_cont`, whether it is an `fs` term. -/
structure NTerm where
  vars : List String
  byLevels : Option (List String)
  binary : Option (String × String)
  byCont : Option String
  isFs : Bool

/-- Suffixes for `binary` and `by_cont` (1715-1722). -/
def suffix (t : NTerm) (s : String) : String :=
  let s := match t.binary with
    | some b => s ++ "_" ++ b.1 ++ "_" ++ b.2
    | none => s
  match t.byCont with
  | some c => s ++ "_" ++ c
  | none => s

/-- `ext_vars` of one variable (1706-1722). -/
def ext1 (t : NTerm) (v : String) : List String :=
  (match t.byLevels with
    | some ls => ls.map fun l => v ++ "_" ++ l
    | none => [v]).map (suffix t)

/-- `term_var[tii]` (1699-1725). -/
def ext (t : NTerm) : List String := t.vars.flatMap (ext1 t)

/-- `n_by` (1852-1856). -/
def nBy (t : NTerm) : ℕ := match t.byLevels with
  | some ls => ls.length
  | none => 1

/-- `otis_var` (1888-1895): names of the variables of a term for one level. -/
def own (t : NTerm) (b : ℕ) : List String :=
  if nBy t > 1 then (List.range t.vars.length).map fun i => (ext t).getD (b + i * nBy t) "" else ext t

/-- `np.any([t_var in otis_var for t_var in term_var[ti]])`. -/
def shares (t o : NTerm) (b : ℕ) : Bool := (ext t).any fun v => (own o b).contains v

/-- `itis` (1898-1914): smaller terms, then earlier terms of the same size, that share a name with the term at position `o`. -/
def compared (ts : List NTerm) (o b : ℕ) : List ℕ :=
  let t := fun i => ts.getD i ⟨[], none, none, none, true⟩
  ((List.range ts.length).filter fun i => (t i).vars.length < (t o).vars.length ∧ shares (t i) (t o) b) ++
  ((List.range ts.length).filter fun i => (t i).vars.length = (t o).vars.length ∧ i < o ∧ shares (t i) (t o) b)

/-- Matrices per term and level, and collected indices. -/
structure State (N : ℕ) where
  X : ℕ → ℕ → List (Col N)
  drop : ℕ → List ℕ

/-- Exceptions: `np.max` of an empty list (1689), `Xs[ti][by_idx]` out of range (1906, 1914). -/
inductive Err where
  | value | index
deriving DecidableEq

/-- Positions that `np.delete` keeps, in order. -/
def keep (n : ℕ) (ps : List ℕ) : List ℕ := (List.range n).filter fun i => i ∉ ps

/-- `np.delete(X, ps, axis=1)`. -/
def delCols {N : ℕ} (X : List (Col N)) (ps : List ℕ) : List (Col N) := (keep X.length ps).map fun i => X.getD i 0

/-- `X1` (1916-1925). -/
def lhs {N : ℕ} (intercept : Bool) (X : ℕ → ℕ → List (Col N)) (its : List ℕ) (b : ℕ) : List (Col N) :=
  (if intercept then [fun _ => 1] else []) ++ its.flatMap fun i => X i b

/-- Body of the loops for the term at position `o` and level `b` (1885-1942). `idDep` is `id_dependencies`: permutation and rank. -/
def step {N : ℕ} (idDep : List (Col N) → List (Col N) → List ℕ × ℕ) (intercept : Bool) (ts : List NTerm) (s : State N) (ob : ℕ × ℕ) :
    Except Err (State N) :=
  let its := compared ts ob.1 ob.2
  if its.any fun i => nBy (ts.getD i ⟨[], none, none, none, true⟩) ≤ ob.2 then .error .index
  else if its = [] then .ok s
  else
    let X2 := s.X ob.1 ob.2
    let d := idDep (lhs intercept s.X its ob.2) X2
    if d.2 < X2.length then
      .ok { X := fun o b => if o = ob.1 ∧ b = ob.2 then delCols X2 (d.1.drop d.2) else s.X o b
            drop := fun o => if o = ob.1 then s.drop o ++ ((d.1.drop d.2).map fun i => i + ob.2 * d.1.length).mergeSort else s.drop o }
    else .ok s

/-- Largest number of variables (1688-1689). -/
def maxVar (ts : List NTerm) : ℕ := (ts.map fun t => t.vars.length).foldl max 0

/-- Terms and levels in the order of the loops (1877-1885). -/
def work (ts : List NTerm) : List (ℕ × ℕ) :=
  (List.range' 2 (maxVar ts - 1)).flatMap fun sz =>
    ((List.range ts.length).filter fun i => (ts.getD i ⟨[], none, none, none, true⟩).vars.length = sz).flatMap fun o =>
      (List.range (nBy (ts.getD o ⟨[], none, none, none, true⟩))).map fun b => (o, b)

/-- `__fix_nested` (1684-1948): matrices and dropped coefficients of the smooth terms that are not `fs` terms, numbered by position in that list. `X` are the
matrices of these terms. -/
def fixNested {N : ℕ} (idDep : List (Col N) → List (Col N) → List ℕ × ℕ) (intercept : Bool) (all : List NTerm) (X : ℕ → ℕ → List (Col N)) :
    Except Err (State N) :=
  let ts := all.filter fun t => ! t.isFs
  if ts = [] then .error .value
  else if maxVar ts = 1 then .ok ⟨X, fun _ => []⟩
  else if (ts.flatMap ext).Nodup then .ok ⟨X, fun _ => []⟩
  else (work ts).foldlM (step idDep intercept ts) ⟨X, fun _ => []⟩

/-! ### `id_dependencies` -/

/-- Result of Eigen's column-pivoted QR decomposition: `colsPermutation().indices()`, `rank()`, `matrixR()`. -/
structure Piv where
  perm : List ℕ
  rank : ℕ
  R : ℕ → ℕ → ℝ

/-- `B(seq(X1cols, last), all)` of one column (781). -/
def lower {N : ℕ} (m : ℕ) (v : Col N) : Col (N - m) := fun i => v ⟨m + i, by omega⟩

/-- Mean absolute value of the block of `R2` from row and column `r - 1` on (799-800), `r0` the rank of Eigen. -/
noncomputable def meanBlock (R : ℕ → ℕ → ℝ) (r0 r : ℕ) : ℝ :=
  (∑ i ∈ Finset.Ico (r - 1) r0, ∑ j ∈ Finset.Ico (r - 1) r0, |if i ≤ j then R i j else 0|) / ((r0 - (r - 1) : ℕ) : ℝ) ^ 2

/-- The loop of 795-811. -/
noncomputable def shrink (thresh : ℝ) (R : ℕ → ℕ → ℝ) (r0 : ℕ) : ℕ → ℕ
  | 0 => 0
  | r + 1 => if meanBlock R r0 (r + 1) ≥ thresh then r + 1 else shrink thresh R r0 r

/-- `id_dependencies` (758-815). `qr1` gives the orthogonal matrix of the Householder decomposition, `qr2` the pivoted decomposition. -/
noncomputable def idDeps {N : ℕ} (qr1 : List (Col N) → Matrix (Fin N) (Fin N) ℝ) (qr2 : ∀ n : ℕ, List (Col n) → Piv) (tol : ℝ)
    (X1 X2 : List (Col N)) : List ℕ × ℕ :=
  let Q := qr1 X1
  let r11 := if h : 0 < N then Q.transpose.mulVec (X1.getD 0 0) ⟨0, h⟩ else 0
  let thresh := |r11| * tol
  let A := X2.map fun v => lower X1.length (Q.transpose.mulVec v)
  let p := qr2 _ A
  (p.perm, shrink thresh p.R p.rank p.rank)

end Verif.Nest
