import Verif.DropModel
import Mathlib.Analysis.SpecialFunctions.Sqrt
import Mathlib.Data.Matrix.Mul

/-!
# Finding coefficients to drop (property C143)

Model of the matrix that `identify_drop` examines (4783-4798), of the whole function (4736-4929) and of the normalised penalty
`S_norm` (6129-6142, 9269-9282) (src/mssm/src/python/gamm_solvers.py).  The decompositions are parameters; the index bookkeeping is that
of `DropModel`.
-/

namespace Verif.Red
open Verif.Drop

variable {n : ℕ}

/-- `scp.sparse.linalg.norm(A, ord=None)`: the Frobenius norm. -/
noncomputable def frob (A : Matrix (Fin n) (Fin n) ℝ) : ℝ := Real.sqrt (∑ i, ∑ j, A i j ^ 2)

/-- `-1 * H / norm(H) + S_scaled` (4787-4789). -/
noncomputable def scaled (H S : Matrix (Fin n) (Fin n) ℝ) : Matrix (Fin n) (Fin n) ℝ := Matrix.of fun i j => -1 * (H i j / frob H) + S i j

/-- `nHdgr` (4793-4795): absolute diagonal, entries below `eps ** 2` replaced by one, to the power -1/2. -/
noncomputable def dgr (eps : ℝ) (M : Matrix (Fin n) (Fin n) ℝ) (i : Fin n) : ℝ :=
  (Real.sqrt (if |M i i| < eps ^ 2 then 1 else |M i i|))⁻¹

/-- `D @ nH_scaled @ D` (4796-4797). -/
noncomputable def pre (eps : ℝ) (M : Matrix (Fin n) (Fin n) ℝ) : Matrix (Fin n) (Fin n) ℝ :=
  Matrix.of fun i j => dgr eps M i * M i j * dgr eps M j

/-- What the decompositions return for a matrix: column order and rank of `cpp_dqrr` (4804); the vector of the smallest singular value of the
rows and columns kept, `none` if the solver fails (4849-4898); whether these rows and columns have a Cholesky factor and an acceptable condition
number (4816-4833, 4909-4924). -/
structure Ext (n : ℕ) where
  qr : Matrix (Fin n) (Fin n) ℝ → List ℕ × ℕ
  vec : Matrix (Fin n) (Fin n) ℝ → List ℕ → Option (List ℝ)
  ok : Matrix (Fin n) (Fin n) ℝ → List ℕ → Bool

/-- `np.sort`. -/
def sort (l : List ℕ) : List ℕ := l.mergeSort

/-- `identify_drop(H, S_scaled, method)`: `byqr` is `method == "QR"`; `fuel` passes of the loop, `none`: still running.
Returns `keep` and `drop`. -/
noncomputable def identify (e : Ext n) (eps : ℝ) (byqr : Bool) (fuel : ℕ) (H S : Matrix (Fin n) (Fin n) ℝ) : Option (List ℕ × List ℕ) :=
  let M := pre eps (scaled H S)
  if byqr then some (byQR sort n (e.qr M).1 (e.qr M).2)
  else if e.ok M (List.range n) then some (sort (List.range n), sort [])
  else (foster n (e.vec M) (e.ok M) fuel []).map fun drop => (sort (complement n drop), sort drop)

/-- `S_norm` before the last division: sum of penalties over their norms (6130-6136, 9270-9276). -/
noncomputable def sSum : List (Matrix (Fin n) (Fin n) ℝ) → Matrix (Fin n) (Fin n) ℝ
  | [] => 0
  | P :: Ps => (1 / frob P) • P + sSum Ps

/-- `S_norm` (6129-6142, 9269-9282). -/
noncomputable def sNorm (Ps : List (Matrix (Fin n) (Fin n) ℝ)) : Matrix (Fin n) (Fin n) ℝ :=
  if Ps = [] then 0 else (1 / frob (sSum Ps)) • sSum Ps

end Verif.Red
