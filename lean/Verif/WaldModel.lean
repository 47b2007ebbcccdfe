import Mathlib.Data.Matrix.Mul
import Mathlib.Analysis.SpecialFunctions.Pow.Real
import Mathlib.Algebra.Order.Floor.Semiring
import Mathlib.Data.Sign.Basic

/-!
# Tests of smooth terms (property C86)

Model of one test in `approx_smooth_p_values` (src/mssm/src/python/utils.py 1262-1532), from the coefficients of the function on.
`R` is the triangular factor of its part of the model matrix, `s` and `U` are what `eigh` returned for `R V R.T`, in decreasing
order (1287-1289), `r` the degrees of freedom of the function. Exact arithmetic. The distribution functions of scipy and
`daviesQF` (davies.cpp; probability that a weighted sum of independent chi-square variables is below a value, and a
fault code) are inputs. The choice of a random subset of rows (1277-1280) is part of the choice of `R`.
-/

namespace Verif.Wald

open Matrix

/-- Library functions: `scp.stats.f.cdf`, `chi2.cdf`, `beta.cdf`, `gamma.cdf` with scale 2, and `davies.daviesQF` with weights,
degrees of freedom and value. -/
structure Lib where
  fcdf : ℝ → ℝ → ℝ → ℝ
  chi2 : ℝ → ℝ → ℝ
  beta : ℝ → ℝ → ℝ → ℝ
  gamma : ℝ → ℝ → ℝ
  davies : List ℝ → List ℝ → ℝ → ℝ × ℕ

variable {m : ℕ}

/-- `U *= sign` for `sign = np.sign(W[0, :])` (1304-1305, 1337-1338 with `W = U`; 1310, 1361 with `U` already changed and the
same signs). -/
noncomputable def flip {n : ℕ} (W : Matrix (Fin (m + 1)) (Fin n) ℝ) (U : Matrix (Fin (m + 1)) (Fin n) ℝ) : Matrix (Fin (m + 1)) (Fin n) ℝ :=
  Matrix.of fun i j => U i j * SignType.sign (W 0 j)

/-- `s_coef.T @ R.T @ (U @ S @ U.T) @ R @ s_coef` (1306, 1311, 1314-1315; 1357, 1362, 1365-1366), `f` is `R @ s_coef`. -/
def quad {n : ℕ} (U : Matrix (Fin (m + 1)) (Fin n) ℝ) (S : Matrix (Fin n) (Fin n) ℝ) (f : Fin (m + 1) → ℝ) : ℝ :=
  f ⬝ᵥ (U * S * Uᵀ).mulVec f

/-- `Tr1`, `Tr2` (1304-1315, 1337-1366): the signs are taken from the first row and applied once, then once more. -/
noncomputable def stats {n : ℕ} (U : Matrix (Fin (m + 1)) (Fin n) ℝ) (S : Matrix (Fin n) (Fin n) ℝ) (f : Fin (m + 1) → ℝ) : ℝ × ℝ :=
  (quad (flip U U) S f, quad (flip U (flip U U)) S f)

/-- `S` in the integer case (1300-1302). -/
noncomputable def sInt (s : Fin (m + 1) → ℝ) (k : ℕ) : Matrix (Fin (m + 1)) (Fin (m + 1)) ℝ :=
  Matrix.diagonal fun j => if (j : ℕ) < k then 1 / s j else 0

/-- `p` (1329). -/
noncomputable def pB (v : ℝ) : ℝ := (v * (1 - v) / 2) ^ (1 / 2 : ℝ)

/-- `Bb` (1350), for positions 0 and 1 of the block. -/
noncomputable def bB (v : ℝ) (i j : Bool) : ℝ := if i = j then (if i then v else 1) else pB v

/-- `S` in the other case, for `k = κ + 1` (1342-1354); `s` holds the `k + 1` largest eigenvalues. -/
noncomputable def sNon {κ : ℕ} (s : Fin (κ + 2) → ℝ) (v : ℝ) : Matrix (Fin (κ + 2)) (Fin (κ + 2)) ℝ :=
  Matrix.of fun i j =>
    if κ ≤ i ∧ κ ≤ j then s i ^ (-1 / 2 : ℝ) * bB v (decide ((i : ℕ) = κ + 1)) (decide ((j : ℕ) = κ + 1)) * s j ^ (-1 / 2 : ℝ)
    else if i = j then 1 / s i else 0

/-- `v1` (1369). -/
noncomputable def v1 (v : ℝ) : ℝ := (v + 1 + (1 - v ^ 2) ^ (1 / 2 : ℝ)) / 2

/-- `v2` (1370). -/
noncomputable def v2 (v : ℝ) : ℝ := v + 1 - v1 v

/-- `lb` (1383-1390, 1465-1472): weights of the chi-square variables. -/
noncomputable def lb (k : ℕ) (v : ℝ) : List ℝ := (if 1 < k then [1] else []) ++ [v1 v, v2 v]

/-- `n` without the last entry `rs_df` (1382-1389, 1464-1471): degrees of freedom of the chi-square variables. -/
def nn (k : ℕ) : List ℝ := (if 1 < k then [(k : ℝ) - 2 + 1] else []) ++ [1, 1]

/-- Whether the approximation is used in place of `daviesQF` (1426, 1436; 1490, 1500). -/
def fallback (force : Bool) (c1 c2 : ℕ) : Bool := (0 < c1 || 0 < c2 || force) && (c1 ≠ 2 || c2 ≠ 2)

/-- First `k + 1` columns (1333). -/
def cols {n : ℕ} (U : Matrix (Fin (m + 1)) (Fin (m + 1)) ℝ) (h : n ≤ m + 1) : Matrix (Fin (m + 1)) (Fin n) ℝ :=
  U.submatrix id (Fin.castLE h)

/-- p-values and statistics in the integer case (1317-1326). -/
noncomputable def intCase (L : Lib) (twopar : Bool) (rsdf : ℝ) (k : ℕ) (T : ℝ × ℝ) : (ℝ × ℝ) × (ℝ × ℝ) :=
  if twopar then ((1 - L.fcdf (T.1 / k) k rsdf, 1 - L.fcdf (T.2 / k) k rsdf), (T.1 / k, T.2 / k))
  else ((1 - L.chi2 T.1 k, 1 - L.chi2 T.2 k), T)

/-- p-values and statistics in the other case (1373-1512). -/
noncomputable def nonCase (L : Lib) (twopar force : Bool) (rsdf r v : ℝ) (k : ℕ) (T : ℝ × ℝ) : (ℝ × ℝ) × (ℝ × ℝ) :=
  if twopar then
    let d1 := L.davies (lb k v ++ [-T.1 / rsdf]) (nn k ++ [rsdf]) 0
    let d2 := L.davies (lb k v ++ [-T.2 / rsdf]) (nn k ++ [rsdf]) 0
    let t1 := T.1 / r
    let t2 := T.2 / r
    if fallback force d1.2 d2.2 then
      ((1 - L.beta ((r * t1 / rsdf) / (1 + r * t1 / rsdf)) (r / 2) (rsdf / 2),
        1 - L.beta ((r * t2 / rsdf) / (1 + r * t2 / rsdf)) (r / 2) (rsdf / 2)), (t1, t2))
    else ((1 - d1.1, 1 - d2.1), (t1, t2))
  else
    let d1 := L.davies (lb k v) (nn k) T.1
    let d2 := L.davies (lb k v) (nn k) T.2
    if fallback force d1.2 d2.2 then ((1 - L.gamma T.1 (r / 2), 1 - L.gamma T.2 (r / 2)), T)
    else ((1 - min d1.1 1, 1 - min d2.1 1), T)

/-- One test (1292-1525): `(p, Tr)`. `none`: an exception (`s[k]` does not exist, 1347). -/
noncomputable def test (L : Lib) (twopar force : Bool) (rsdf : ℝ) (U : Matrix (Fin (m + 1)) (Fin (m + 1)) ℝ) (s : Fin (m + 1) → ℝ)
    (r : ℝ) (f : Fin (m + 1) → ℝ) : Option (ℝ × ℝ) :=
  open Classical in
  match ⌊r⌋₊ with
  | 0 => some (1, -1)
  | κ + 1 =>
    let v := r - (κ + 1 : ℕ)
    if v = 0 then
      let q := intCase L twopar rsdf (κ + 1) (stats U (sInt s (κ + 1)) f)
      some ((q.1.1 + q.1.2) / 2, max q.2.1 q.2.2)
    else if h : κ + 2 ≤ m + 1 then
      let q := nonCase L twopar force rsdf r v (κ + 1) (stats (cols U h) (sNon (fun j => s (Fin.castLE h j)) v) f)
      some ((q.1.1 + q.1.2) / 2, max q.2.1 q.2.2)
    else none

end Verif.Wald
