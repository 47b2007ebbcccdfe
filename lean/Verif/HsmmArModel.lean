import Verif.HsmmFtp
import Verif.Ar1

/-!
Model of event models (HMP) with autoregressive residuals, `src/mssm/src/python/hsmm.py`: use of `Lrhoi` in
`_split_matrices` (124, 156, 174) and in `HSMMFamily.llk` (2999-3005, 3077-3078). One series with `n_T` samples, so that
`Lrhoi` is the matrix of `computeAr1Chol` with a single start (`Ar1.Lrhoi`).
-/

namespace Verif.Hsmm

open Finset

/-- Start flags of one series. -/
def oneSeries (n : ℕ) : List Bool := (List.range n).map fun i => decide (i = 0)

/-- `rho = np.sqrt(-1 * (np.power(1 / Lrhoi[1, 1], 2) - 1))` (3005, 4189). -/
noncomputable def recRho (L11 : ℝ) : ℝ := Real.sqrt (-1 * ((1 / L11) ^ 2 - 1))

/-- `Lrhoi.T @ ys[idx]` (124, 156, 174), entry `t`. -/
noncomputable def whiten (ρ : ℝ) (n : ℕ) (y : ℕ → ℝ) (t : ℕ) : ℝ :=
  ∑ k ∈ range n, Ar1.Lrhoi ρ (oneSeries n) k t * y k

/-- `llc = np.log(d0[d0 != 1]).sum()` with the diagonal `d0` (3003-3004). -/
noncomputable def llcDiag (ρ : ℝ) (n : ℕ) : ℝ :=
  ∑ i ∈ range n, if Ar1.d0 ρ (oneSeries n) i ≠ 1 then Real.log (Ar1.d0 ρ (oneSeries n) i) else 0

/-- Inputs of the emission tables: whitened signals and recovered `rho`. -/
noncomputable def arArgs (n : ℕ) (e : EventArgs) (ρ : ℝ) : EventArgs :=
  { e with
    y := fun t m => whiten ρ n (fun k => e.y k m) t
    rho := some (recRho (Ar1.Lrhoi ρ (oneSeries n) 1 1)) }

/-- `HSMMFamily.llk` for one series of an event model with `Lrhoi` (2999-3080): the correction is subtracted once. -/
noncomputable def eventLlkAr (m : Tables ℝ) (e : EventArgs) (ρ : ℝ) : ℝ :=
  llk (eventTables m (arArgs m.n_T e ρ) e.mu) - llcDiag ρ m.n_T

end Verif.Hsmm
