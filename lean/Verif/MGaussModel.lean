import Mathlib.Analysis.SpecialFunctions.Exp
import Mathlib.Data.Matrix.Mul
import Mathlib.Data.Matrix.Basis

/-!
# The multivariate Gaussian family (property C49)

Model of `MultiGauss` in src/mssm/src/python/exp_fam.py (4582-5240).  There are `m` means, `N` observations; mean `p` has `k p`
coefficients `β p` and model matrix `X p` (after replacing missing matrices by the first one, 4794).  The last block of coefficients
is `θ`, read by position.  Link functions enter through their inverses `fi`.  Arithmetic is over the reals.
-/

namespace Verif.MGauss

open Matrix

/-- `__thet_idx` (4642-4645): cells of the triangular factor in the order in which their parameters are stored. -/
def thetIdx (m : ℕ) : List (ℕ × ℕ) := (List.range m).flatMap fun i => (List.range (m - i)).map fun d => (i, i + d)

/-- `dat_idx` at the start of row `i` in `getR` (4696-4704). -/
def datIdx (m : ℕ) : ℕ → ℕ
  | 0 => 0
  | i + 1 => datIdx m i + (m - i)

/-- Position of the parameter that `getR` puts into cell `(i, j)`, `i ≤ j` (4700). -/
def pos (m : ℕ) (i j : Fin m) : ℕ := datIdx m i + (j - i)

variable {m N : ℕ}

/-- `R` as returned by `getR` (4694-4704). -/
noncomputable def getR (m : ℕ) (θ : ℕ → ℝ) : Matrix (Fin m) (Fin m) ℝ :=
  of fun i j => if i ≤ j then (if i = j then Real.exp (θ (pos m i j)) else θ (pos m i j)) else 0

/-- `logdet` as returned by `getR` (4697, 4701). -/
def logdet (m : ℕ) (θ : ℕ → ℝ) : ℝ := ∑ i : Fin m, θ (pos m i i)

variable {k : Fin m → ℕ}

/-- Linear predictors (4799). -/
def eta (X : (p : Fin m) → Matrix (Fin N) (Fin (k p)) ℝ) (β : (p : Fin m) → Fin (k p) → ℝ) (o : Fin N) (p : Fin m) : ℝ :=
  ∑ c, X p o c * β p c

/-- `y - mus` (4743, 4749; 4797-4803). -/
def err (fi : Fin m → ℝ → ℝ) (y : Matrix (Fin N) (Fin m) ℝ) (X : (p : Fin m) → Matrix (Fin N) (Fin (k p)) ℝ)
    (β : (p : Fin m) → Fin (k p) → ℝ) : Matrix (Fin N) (Fin m) ℝ := of fun o p => y o p - fi p (eta X β o p)

/-- `llk` (4708-4755) as a function of the errors. -/
noncomputable def llk (e : Matrix (Fin N) (Fin m) ℝ) (θ : ℕ → ℝ) : ℝ :=
  -(1 / 2) * (∑ o, ∑ p, (e * (getR m θ)ᵀ) o p * (e * (getR m θ)ᵀ) o p) + N * logdet m θ

/-- Entries of `gradient` for the coefficients of mean `p` (4821-4828). -/
noncomputable def gradMean (X : (p : Fin m) → Matrix (Fin N) (Fin (k p)) ℝ) (e : Matrix (Fin N) (Fin m) ℝ) (θ : ℕ → ℝ)
    (p : Fin m) (c : Fin (k p)) : ℝ := ∑ o, X p o c * ((getR m θ)ᵀ * (e * (getR m θ)ᵀ)ᵀ) p o

/-- Partial derivative of the factor (4831-4837, 4947-4948, 4963-4967). -/
noncomputable def Rp (θ : ℕ → ℝ) (r c : Fin m) : Matrix (Fin m) (Fin m) ℝ := Matrix.single r c (if r = c then getR m θ r r else 1)

/-- Entry of `gradient` for the cell `(r, c)` (4839-4848). -/
noncomputable def gradTheta (e : Matrix (Fin N) (Fin m) ℝ) (θ : ℕ → ℝ) (r c : Fin m) : ℝ :=
  -(∑ o, ∑ q, (e * (getR m θ)ᵀ) o q * (e * (Rp θ r c)ᵀ) o q) + if r = c then (N : ℝ) else 0

/-- `xbarj` (4933-4939). -/
def xbar (X : (p : Fin m) → Matrix (Fin N) (Fin (k p)) ℝ) (p : Fin m) (c : Fin (k p)) : Matrix (Fin m) (Fin N) ℝ :=
  of fun q o => if q = p then X p o c else 0

/-- `jcolhessian`, column of coefficient `c'` of mean `p'`, row of coefficient `c` of mean `p` (4941, 4955-4956). -/
noncomputable def hCC (X : (p : Fin m) → Matrix (Fin N) (Fin (k p)) ℝ) (θ : ℕ → ℝ) (p' : Fin m) (c' : Fin (k p')) (p : Fin m)
    (c : Fin (k p)) : ℝ := -∑ o, X p o c * ((getR m θ)ᵀ * getR m θ * xbar X p' c') p o

/-- `Rp.T @ R + R.T @ Rp` (4949, 4970). -/
noncomputable def rpr (θ : ℕ → ℝ) (r c : Fin m) : Matrix (Fin m) (Fin m) ℝ := (Rp θ r c)ᵀ * getR m θ + (getR m θ)ᵀ * Rp θ r c

/-- Column of cell `(r, c')`, row of coefficient `c` of mean `p` (4949-4950, 4958-4959). -/
noncomputable def hTC (X : (p : Fin m) → Matrix (Fin N) (Fin (k p)) ℝ) (e : Matrix (Fin N) (Fin m) ℝ) (θ : ℕ → ℝ) (r c' : Fin m)
    (p : Fin m) (c : Fin (k p)) : ℝ := ∑ o, X p o c * (rpr θ r c' * eᵀ) p o

/-- Column of coefficient `c'` of mean `p'`, row of cell `(r, c)` (4969-4974). -/
noncomputable def hCT (X : (p : Fin m) → Matrix (Fin N) (Fin (k p)) ℝ) (e : Matrix (Fin N) (Fin m) ℝ) (θ : ℕ → ℝ) (p' : Fin m)
    (c' : Fin (k p')) (r c : Fin m) : ℝ := ∑ o, xbar X p' c' p' o * (rpr θ r c * eᵀ) p' o

/-- Column of cell `(r', c')`, row of cell `(r, c)` (4975-4979). -/
noncomputable def hTT (e : Matrix (Fin N) (Fin m) ℝ) (θ : ℕ → ℝ) (r' c' r c : Fin m) : ℝ :=
  -∑ o, ∑ q, ((e * (Rp θ r' c')ᵀ) o q * (e * (Rp θ r c)ᵀ) o q +
    if r = r' ∧ c = c' then (e * (getR m θ)ᵀ) o q * (e * (Rp θ r' c')ᵀ) o q else 0)

/-- `get_resid` (5067-5075) for all means. -/
noncomputable def resid (e : Matrix (Fin N) (Fin m) ℝ) (θ : ℕ → ℝ) : Matrix (Fin N) (Fin m) ℝ := e * (getR m θ)ᵀ

/-- The direction of one coefficient (not part of the code; used in statements about derivatives). -/
def unitB (p : Fin m) (c : Fin (k p)) : (q : Fin m) → Fin (k q) → ℝ := Pi.single p (Pi.single c 1)

end Verif.MGauss
