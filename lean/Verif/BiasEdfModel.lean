import Mathlib.Data.Real.Basic
import Mathlib.LinearAlgebra.Matrix.Trace
import Mathlib.LinearAlgebra.Matrix.NonsingularInverse

/-! Model of `compute_bias_corrected_edf` (`/repo/src/mssm/src/python/utils.py` 1024-1093), with real instead of floating point
matrices. `lvi`, `hessian`, the split penalties and the number of unpenalised coefficients are inputs. -/

namespace Verif.BiasEdf

open Matrix

variable {n : ℕ}

/-- Fields of a penalty used by the function: `start_index`, `rep_sj`, `S_J.shape[1]`. -/
structure Pen where
  start : ℕ
  rep : ℕ
  dim : ℕ

/-- `S_end` (utils.py 1075-1077). -/
def Pen.stop (p : Pen) : ℕ := p.start + p.rep * p.dim

/-- The matrix `F` (utils.py 1053-1054 for class `Family`, 1061-1062 with scale 1 otherwise). -/
noncomputable def fmat (lvi hessian : Matrix (Fin n) (Fin n) ℝ) (scale : ℝ) : Matrix (Fin n) (Fin n) ℝ :=
  lviᵀ * lvi * (scale • ((-1 : ℝ) • hessian))

/-- Positions in `S_start:S_end`. -/
def block (p : Pen) : Finset (Fin n) := Finset.univ.filter fun i => p.start ≤ i ∧ (i : ℕ) < p.stop

/-- `t_edf1` of one penalty (utils.py 1079-1085). -/
noncomputable def termEdf1 (F : Matrix (Fin n) (Fin n) ℝ) (p : Pen) : ℝ :=
  2 * (∑ i ∈ block p, F i i) - ∑ i ∈ block p, ∑ k, F i k * F k i

/-- Loop variables. -/
structure St where
  prev : ℤ
  terms : List ℝ
  total : ℝ

/-- Loop body (utils.py 1073-1090). -/
noncomputable def step (F : Matrix (Fin n) (Fin n) ℝ) (st : St) (p : Pen) : St :=
  if (p.start : ℤ) > st.prev then ⟨p.start, st.terms ++ [termEdf1 F p], st.total + termEdf1 F p⟩ else st

/-- `compute_bias_corrected_edf` (utils.py 1045-1093): `unpen` is the sum of `unpenalized_coef` over formulas. -/
noncomputable def run (F : Matrix (Fin n) (Fin n) ℝ) (unpen : ℕ) (pens : List Pen) : St :=
  pens.foldl (step F) ⟨-1, [], unpen⟩

end Verif.BiasEdf
