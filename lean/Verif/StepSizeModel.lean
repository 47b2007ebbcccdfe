import Verif.NutsModel
import Mathlib.Analysis.SpecialFunctions.Log.Basic

/-!
# The initial step size (property C73)

Model of `find_reasonable_epsilon` (mcmc.cpp 295-369). The momentum drawn at 331 is a parameter. The loop (354-367) has no
limit on the number of passes; here it is given `fuel` passes and `none` says that they were not enough. Simplified: real
numbers instead of doubles, so no NaN, for which the loop of the source ends with the start value 0.1.
-/

namespace Verif.StepSize

open Matrix Verif.Nuts

variable {p : ℕ}

/-- `lp` (345-348, 364-366): log of the ratio of joint densities after one leap of size `eps`. -/
noncomputable def lp (T : Target p) (state grad r : Fin p → ℝ) (L eps : ℝ) : ℝ :=
  let s := leapFrog T state grad r eps
  (s.2.2.2 - energy T s.2.2.1) - (L - energy T r)

/-- The loop (354-367): `ratio` gives `lp`, `alpha` is 1 or -1. -/
noncomputable def search (ratio : ℝ → ℝ) (alpha : ℤ) : ℕ → ℝ → Option ℝ
  | 0, _ => none
  | fuel + 1, eps =>
    if ratio eps * alpha > Real.log 2 * -1 * alpha then search ratio alpha fuel (eps * (2 : ℝ) ^ alpha) else some eps

/-- `find_reasonable_epsilon` (328-369). -/
noncomputable def findEps (T : Target p) (state grad r : Fin p → ℝ) (L : ℝ) (fuel : ℕ) : Option ℝ :=
  let idx : ℤ := if lp T state grad r L (1 / 10) > Real.log (1 / 2) then 1 else 0
  search (lp T state grad r L) (2 * idx - 1) fuel (1 / 10)

end Verif.StepSize
