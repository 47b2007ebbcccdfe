import Mathlib.LinearAlgebra.Matrix.Determinant.Basic
import Mathlib.Analysis.SpecialFunctions.Sqrt
import Mathlib.Data.Matrix.Mul
import Mathlib.LinearAlgebra.Matrix.Notation
import Mathlib.Data.Real.Basic

/-!
# Sampling from a multivariate normal (property C37)

Model of `sample_MVN` (src/mssm/src/python/utils.py 516-672), one draw: `z` the standard normal draws
(641-643).
-/

namespace Verif.Mvn

open Matrix

/-- `mu` is an integer, treated as 0, or a vector (651, 664). -/
def mean {p : ℕ} : Option (Fin p → ℝ) → Fin p → ℝ
  | none => 0
  | some mu => mu

/-- `Cs` when `LI` is given (636, 658-659). -/
noncomputable def Cs {p q : ℕ} (scale : ℝ) (P : Option (Matrix (Fin p) (Fin p) ℝ))
    (LI : Matrix (Fin q) (Fin p) ℝ) : Matrix (Fin p) (Fin q) ℝ :=
  match P with
  | none => √scale • LIᵀ
  | some P => Pᵀ * (√scale • LIᵀ)

/-- Draw from `LI` for all parameters (664-672). -/
noncomputable def sampleLI {p q : ℕ} (mu : Option (Fin p → ℝ)) (scale : ℝ)
    (P : Option (Matrix (Fin p) (Fin p) ℝ)) (LI : Matrix (Fin q) (Fin p) ℝ) (z : Fin q → ℝ) : Fin p → ℝ :=
  mean mu + (Cs scale P LI).mulVec z

/-- Draw from `LI` for the parameters `use` (661-668): `Cs[use, :]`, `mu[use]`. -/
noncomputable def sampleUse {p q m : ℕ} (use : Fin m → Fin p) (mu : Option (Fin p → ℝ)) (scale : ℝ)
    (P : Option (Matrix (Fin p) (Fin p) ℝ)) (LI : Matrix (Fin q) (Fin p) ℝ) (z : Fin q → ℝ) : Fin m → ℝ :=
  (fun i => mean mu (use i)) + ((Cs scale P LI).submatrix use id).mulVec z

/-- Draw from `L` (638, 646-654): `backsolve U z` is `cpp_backsolve_tr`. -/
noncomputable def sampleL {p : ℕ} (backsolve : Matrix (Fin p) (Fin p) ℝ → (Fin p → ℝ) → Fin p → ℝ)
    (mu : Option (Fin p → ℝ)) (scale : ℝ) (P L : Matrix (Fin p) (Fin p) ℝ) (z : Fin p → ℝ) : Fin p → ℝ :=
  mean mu + Pᵀ.mulVec (backsolve (√(1 / scale) • Lᵀ) z)

/-- What the arguments lead to (622-632, 646). -/
inductive Way (p : ℕ) where
  | error
  | byLI (P : Option (Matrix (Fin p) (Fin p) ℝ)) (LI : Matrix (Fin p) (Fin p) ℝ)
  | byLIuse (P : Option (Matrix (Fin p) (Fin p) ℝ)) (LI : Matrix (Fin p) (Fin p) ℝ)
  | byL (P L : Matrix (Fin p) (Fin p) ℝ)

/-- Argument checks in order (622-632) and choice of root (646). -/
def way {p : ℕ} (P L LI : Option (Matrix (Fin p) (Fin p) ℝ)) (use : Bool) : Way p :=
  match L, LI with
  | none, none => .error
  | _, some LI => if use then .byLIuse P LI else .byLI P LI
  | some L, none =>
    match P with
    | none => .error
    | some P => if use then .error else .byL P L

/-- Specification of solving `U y = z`. -/
def Solves {p : ℕ} (backsolve : Matrix (Fin p) (Fin p) ℝ → (Fin p → ℝ) → Fin p → ℝ) : Prop :=
  ∀ (U : Matrix (Fin p) (Fin p) ℝ) z, IsUnit U.det → U.mulVec (backsolve U z) = z

end Verif.Mvn
