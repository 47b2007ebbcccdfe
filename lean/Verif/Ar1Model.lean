import Mathlib.Analysis.SpecialFunctions.Trigonometric.Basic
import Mathlib.Analysis.SpecialFunctions.Log.Basic
import Mathlib.Analysis.SpecialFunctions.Sqrt
import Mathlib.Data.Matrix.Basic
import Mathlib.LinearAlgebra.Matrix.Notation

/-!
# AR(1) residual model (property C36)

Model of `computeAr1Chol` (src/mssm/src/python/utils.py 58-100) and of its use: `y = Lrhoi.T @ y`,
`X = Lrhoi.T @ X` (src/mssm/src/python/gamm_solvers.py 2786-2790) and `GAMM.get_llk`
(src/mssm/models.py 2720-2741).
-/

namespace Verif.Ar1

open Finset

/-- `start` before removing missing observations (79-80): `n` observations, series begin at `sid`. -/
def startAll (n : ℕ) (sid : List ℕ) : List Bool := (List.range n).map fun i => sid.contains i

/-- `start[formula.NOT_NA_flat]` (81). -/
def keepValid {α : Type} (notNA : List Bool) (l : List α) : List α :=
  ((List.zip l notNA).filter fun x => x.2).map fun x => x.1

/-- `sid0 = np.where(start)[0]` (82). -/
def sid0 (start : List Bool) : List ℕ := (List.range start.length).filter fun i => start.getD i false

/-- `sid1 = sid0[1:] - 1` (83). -/
def sid1 (start : List Bool) : List ℕ := (sid0 start).tail.map (· - 1)

/-- `d0` (74, 85). -/
noncomputable def d0 (ρ : ℝ) (start : List Bool) (i : ℕ) : ℝ :=
  if i ∈ sid0 start then 1 else 1 / √(1 - ρ ^ 2)

/-- `d1` (75, 86). -/
noncomputable def d1 (ρ : ℝ) (start : List Bool) (i : ℕ) : ℝ :=
  if i ∈ sid1 start then 0 else -ρ / √(1 - ρ ^ 2)

/-- `Lrhoi` (91): diagonal `d0`, first superdiagonal `d1`. -/
noncomputable def Lrhoi (ρ : ℝ) (start : List Bool) (i j : ℕ) : ℝ :=
  if j = i then d0 ρ start i else if j = i + 1 then d1 ρ start i else 0

/-- `llc` (96-98). -/
noncomputable def llc (ρ : ℝ) (start : List Bool) : ℝ :=
  ((start.length : ℝ) - (start.countP (· = true) : ℝ)) * Real.log (1 / √(1 - ρ ^ 2))

/-- Start flags used: of the valid observations with series (79-81), else only the first observation
(87-89, 96). -/
def flags (series : Option (List ℕ)) (notNA : List Bool) : List Bool :=
  match series with
  | some sid => keepValid notNA (startAll notNA.length sid)
  | none => (List.range (notNA.countP (· = true))).map fun i => decide (i = 0)

/-- `Lrhoi.T` as a matrix over the valid observations. -/
noncomputable def W (ρ : ℝ) (start : List Bool) : Matrix (Fin start.length) (Fin start.length) ℝ :=
  Matrix.of fun i j => Lrhoi ρ start j i

/-- `Gaussian.llk` (exp_fam.py), sum of log normal densities with variance `φ`. -/
noncomputable def gaussLlk {n : ℕ} (r : Fin n → ℝ) (φ : ℝ) : ℝ :=
  ∑ i, (-(1 / 2) * Real.log (2 * Real.pi * φ) - r i ^ 2 / (2 * φ))

/-- `GAMM.get_llk` without penalty for a Gaussian identity model with `rho` (2720-2741): residuals
`res_ar = Lrhoi.T @ (y - X coef)`, correction added. -/
noncomputable def arLlk (ρ : ℝ) (start : List Bool) (r : Fin start.length → ℝ) (φ : ℝ) : ℝ :=
  gaussLlk ((W ρ start).mulVec r) φ + llc ρ start

end Verif.Ar1
