import Mathlib.Data.Matrix.Mul
import Mathlib.Data.Real.Basic
import Mathlib.LinearAlgebra.Matrix.Determinant.Basic

/-!
# Dropped coefficients of re-parameterised models

`update_coef_gammlss` and `update_coef_gen_smooth` estimate coefficients after the re-parameterisation
`Q_emb` and may remove unidentifiable ones; their results are padded with zeros and transformed back
(gamm_solvers.py 5480-5560, 8417-8514, 5945-5959, 8953-8970), while the indices of the removed
coefficients are stored as they are (5890-5893, 8859-8862).

The estimates without the removed coefficients (vector, Hessian, inverse factor) are inputs.
-/

namespace Verif.Dropped
open Matrix

variable {n r : Type} [Fintype n] [DecidableEq n]

/-- `full_coef[keep] = coef` with zeros elsewhere (5482, 8419). -/
def padV (K : Finset n) (b : K → ℝ) : n → ℝ := fun i => if h : i ∈ K then b ⟨i, h⟩ else 0

/-- Padding of `H`, `L` and `LV` (5484-5489, 8421-8426, 8499-8512). -/
def padM (K : Finset n) (A : Matrix K K ℝ) : Matrix n n ℝ :=
  Matrix.of fun i j => if h : i ∈ K then if g : j ∈ K then A ⟨i, h⟩ ⟨j, g⟩ else 0 else 0

/-- What a fit stores: `coef`, `hessian`, `lvi`, `info.dropped`. -/
structure Out (n : Type) where
  coef : n → ℝ
  H : Matrix n n ℝ
  LV : Matrix n n ℝ
  dropped : Finset n

/-- Results after undoing the re-parameterisation (5945-5959, 8953-8970): `K` are the coefficients kept,
`b`, `Hr`, `LVr` the estimates. -/
def finish (Q : Matrix n n ℝ) (K : Finset n) (b : K → ℝ) (Hr LVr : Matrix K K ℝ) : Out n where
  coef := Q *ᵥ padV K b
  H := Q * padM K Hr * Qᵀ
  LV := padM K LVr * Qᵀ
  dropped := Finset.univ.filter fun i => i ∉ K

/-- `keep` in `get_reml` (models.py 565-572, 1810-1817). -/
def keepOf (o : Out n) : Finset n := Finset.univ.filter fun i => i ∉ o.dropped

/-- `H_pen` of `REML` called by `get_reml` (utils.py 2259-2264, models.py 575, 1819): its log-determinant
enters the score. -/
def hPen (o : Out n) (S : Matrix n n ℝ) : Matrix (keepOf o) (keepOf o) ℝ :=
  (-1 • o.H + S).submatrix Subtype.val Subtype.val

/-- Model matrix of a later iteration when the dropped coefficients are kept out
(`should_keep_drop=True`, 6311-6313, 9490-9492): columns `keep` of the newly re-parameterised matrix. -/
def laterX (X : Matrix r n ℝ) (Q : Matrix n n ℝ) (K : Finset n) : Matrix r K ℝ :=
  (X * Q).submatrix id Subtype.val

end Verif.Dropped
