import Mathlib.Data.Real.Basic
import Mathlib.Algebra.BigOperators.Group.Finset.Basic
import Mathlib.Data.Fintype.BigOperators
import Mathlib.Data.Matrix.Mul
import Mathlib.Order.Interval.Finset.Nat

/-! Model of `/repo/src/mssm/src/cpp/dchol.cpp`: `dChol`, `invdChol`, `computeV2`. Matrices inside the loops are arrays
`ℕ → ℕ → ℝ` with explicit size, real arithmetic instead of doubles. Rank updates (`uChol`, lines 15-30) are not modelled. -/

namespace Verif.DChol

open Finset

/-- Array write `a(i,j) = x`. -/
def setAt (a : ℕ → ℕ → ℝ) (i j : ℕ) (x : ℝ) : ℕ → ℕ → ℝ := fun i' j' => if i' = i ∧ j' = j then x else a i' j'

/-- Loop variables of `dChol` (dchol.cpp 43-44). -/
structure St where
  dC : ℕ → ℕ → ℝ
  Rii : ℝ
  dRii : ℝ

/-- `Bij` (dchol.cpp 52-58). For `i = 0` the sum is empty. -/
noncomputable def bij (R A dC : ℕ → ℕ → ℝ) (i j : ℕ) : ℝ :=
  A i j - ∑ k ∈ range i, (dC k i * R k j + R k i * dC k j)

/-- Body of the inner loop (dchol.cpp 52-69). -/
noncomputable def inner (R A : ℕ → ℕ → ℝ) (i : ℕ) (st : St) (j : ℕ) : St :=
  if i = j then
    let d := 1 / 2 * bij R A st.dC i j / R i i
    ⟨setAt st.dC i j d, R i i, d⟩
  else if i < j then
    ⟨setAt st.dC i j ((bij R A st.dC i j - R i j * st.dRii) / st.Rii), st.Rii, st.dRii⟩
  else st

/-- Inner loop over `j = i, …, n-1` (dchol.cpp 48-70). -/
noncomputable def row (R A : ℕ → ℕ → ℝ) (n : ℕ) (dC : ℕ → ℕ → ℝ) (i : ℕ) : ℕ → ℕ → ℝ :=
  ((List.range' i (n - i)).foldl (inner R A i) ⟨dC, 0, 0⟩).dC

/-- `dChol` (dchol.cpp 32-74). -/
noncomputable def dCholArr (n : ℕ) (R A : ℕ → ℕ → ℝ) : ℕ → ℕ → ℝ :=
  (List.range n).foldl (row R A n) (fun _ _ => 0)

/-- A matrix as array. -/
def toArr {n : ℕ} (M : Matrix (Fin n) (Fin n) ℝ) : ℕ → ℕ → ℝ :=
  fun i j => if h : i < n ∧ j < n then M ⟨i, h.1⟩ ⟨j, h.2⟩ else 0

/-- `dChol(R, A)` on matrices. -/
noncomputable def dChol {n : ℕ} (R A : Matrix (Fin n) (Fin n) ℝ) : Matrix (Fin n) (Fin n) ℝ :=
  Matrix.of fun i j => dCholArr n (toArr R) (toArr A) i j

/-- `invdChol(R, Rinv, A)` (dchol.cpp 76-83). -/
noncomputable def invdChol {n : ℕ} (R Rinv A : Matrix (Fin n) (Fin n) ℝ) : Matrix (Fin n) (Fin n) ℝ :=
  (Rinv * dChol R A) * Rinv

/-- `Vjm` (dchol.cpp 104-129): sum over penalties `l`, `k` and columns `i = m, …, n-1`. -/
noncomputable def vjm {np : ℕ} (n : ℕ) (V : Matrix (Fin np) (Fin np) ℝ) (M : Fin np → ℕ → ℕ → ℝ) (j m : ℕ) : ℝ :=
  ∑ l, ∑ k, ∑ i ∈ Ico m n, M k j i * V k l * M l m i

/-- `computeV2` (dchol.cpp 85-134): loop `j`, inner loop `m = j, …, n-1`, writing `(j,m)` and `(m,j)`. -/
noncomputable def computeV2Arr {np : ℕ} (n : ℕ) (V : Matrix (Fin np) (Fin np) ℝ) (M : Fin np → ℕ → ℕ → ℝ) : ℕ → ℕ → ℝ :=
  (List.range n).foldl (fun acc j => (List.range' j (n - j)).foldl
    (fun acc m => setAt (setAt acc m j (vjm n V M j m)) j m (vjm n V M j m)) acc) (fun _ _ => 0)

/-- `computeV2(Vpr, dRdRhos, n)` on matrices. -/
noncomputable def computeV2 {np n : ℕ} (V : Matrix (Fin np) (Fin np) ℝ) (M : Fin np → Matrix (Fin n) (Fin n) ℝ) :
    Matrix (Fin n) (Fin n) ℝ :=
  Matrix.of fun i j => computeV2Arr n V (fun k => toArr (M k)) i j

end Verif.DChol
