import Verif.ReparaAsmModel
import Mathlib.Data.Matrix.Mul
import Mathlib.LinearAlgebra.Matrix.Determinant.Basic
import Mathlib.Analysis.SpecialFunctions.Log.Basic
import Mathlib.Analysis.SpecialFunctions.Trigonometric.Basic

/-!
# The REML score (property C38)

Model of `REML` (src/mssm/src/python/utils.py 2152-2282).  The penalties come in the groups of
`Verif.ReparaAsm`; `t.R` holds `S_rep` of the group in its first `rk t` rows and columns.
-/

namespace Verif.Reml

open Verif.ReparaAsm

/-- First `n` rows and columns. -/
def toM (n : ℕ) (A : Arr) : Matrix (Fin n) (Fin n) ℝ := Matrix.of fun i j => A i j

/-- `A / scale`. -/
noncomputable def over (scale : ℝ) (A : Arr) : Arr := fun i j => A i j / scale

/-- `Sdiag` (2234, 2266). -/
noncomputable def sdiag {n : ℕ} (A : Matrix (Fin n) (Fin n) ℝ) (i : Fin n) : ℝ := Real.sqrt |A i i|

/-- `PI @ A @ PI` (2238, 2269). -/
noncomputable def precond {n : ℕ} (A : Matrix (Fin n) (Fin n) ℝ) : Matrix (Fin n) (Fin n) ℝ :=
  Matrix.of fun i j => (1 / sdiag A i) * A i j * (1 / sdiag A j)

/-- Libraries: `cpp_chol` and `cpp_cholP` (`none`: code other than zero), triangular factor of `qr`. -/
structure Lib where
  chol : (n : ℕ) → Matrix (Fin n) (Fin n) ℝ → Option (Matrix (Fin n) (Fin n) ℝ)
  cholP : (n : ℕ) → Matrix (Fin n) (Fin n) ℝ → Option (Matrix (Fin n) (Fin n) ℝ × Equiv.Perm (Fin n))
  qr : (n : ℕ) → Matrix (Fin n) (Fin n) ℝ → Matrix (Fin n) (Fin n) ℝ

/-- `2 * np.log((L @ P).diagonal()).sum()` (2242, 2279: `P` is diagonal, so `L @ P` and `P @ L` have the
same diagonal). -/
noncomputable def logDiag {n : ℕ} (A L : Matrix (Fin n) (Fin n) ℝ) : ℝ :=
  2 * ∑ i, Real.log (L i i * sdiag A i)

/-- `ldetSI` (2234-2251). -/
noncomputable def ldetTerm (lib : Lib) (scale : ℝ) (rk : Term → ℕ) (t : Term) : ℝ :=
  match lib.chol (rk t) (precond (toM (rk t) (over scale t.R))) with
  | some L => logDiag (toM (rk t) (over scale t.R)) L * t.reps
  | none => (∑ i, Real.log |lib.qr (rk t) (toM (rk t) t.R) i i|) * t.reps

/-- `lgdetS` (2224-2253). -/
noncomputable def lgdetS (lib : Lib) (scale : ℝ) (rk : Term → ℕ) (gs : List Grp) : ℝ :=
  (gs.map fun g => ldetTerm lib scale rk g.t).sum

/-- `Mp` (repara.py 360, 381). -/
def mp (rk : Term → ℕ) (gs : List Grp) : ℕ :=
  (gs.head?.map Grp.start).getD 0 + (gs.map fun g => g.t.size - rk g.t).sum

/-- `H_pen` (2259-2264); `keep` lists the coefficients kept. -/
noncomputable def hPen {n k : ℕ} (scale : ℝ) (nH : Matrix (Fin n) (Fin n) ℝ) (gs : List Grp) (keep : Fin k → Fin n) :
    Matrix (Fin k) (Fin k) ℝ :=
  (nH + toM n (over scale (total Term.S gs))).submatrix keep keep

/-- `coef.T @ S_emb @ coef`. -/
def quad (n : ℕ) (S : Arr) (coef : ℕ → ℝ) : ℝ :=
  ∑ i ∈ Finset.range n, ∑ j ∈ Finset.range n, coef i * S i j * coef j

/-- `REML` (2152-2282); `none` is the `ValueError` (2272-2275). -/
noncomputable def reml {n k : ℕ} (lib : Lib) (rk : Term → ℕ) (llk scale : ℝ) (nH : Matrix (Fin n) (Fin n) ℝ)
    (coef : ℕ → ℝ) (gs : List Grp) (keep : Fin k → Fin n) : Option ℝ :=
  match lib.cholP k (precond (hPen scale nH gs keep)) with
  | none => none
  | some (L, _) => some (llk - quad n (total Term.S gs) coef / scale / 2 + lgdetS lib scale rk gs / 2
      - logDiag (hPen scale nH gs keep) L / 2 + mp rk gs * Real.log (2 * Real.pi) / 2)

end Verif.Reml
