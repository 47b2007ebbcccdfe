import Verif.FamModel
import Verif.LssModel
import Verif.ScaledTModel
import Verif.MGaussModel
import Mathlib.MeasureTheory.Measure.Count
import Mathlib.MeasureTheory.Measure.WithDensity
import Mathlib.MeasureTheory.Constructions.Pi

/-!
# Families as probability distributions: expected values, distribution functions and simulation (C118)

The log densities are those of `FamModel.lean`, `ScaledTModel.lean`, `LssModel.lean` and `MGaussModel.lean`.  This file adds the
methods of `exp_fam.py` that make statements about the distribution of the response: `ScaledT.V`, `ScaledT.Ed2Ddmu`, the
log distribution functions `lcp` and the random number generators `rvs`.  Random numbers of scipy/numpy are external: a generator
is modelled by the law of one entry of the returned array.
-/

namespace Verif.Dens
open Verif Fl MeasureTheory ProbabilityTheory
open scoped ENNReal

/-! ### The distribution described by a log density -/

/-- A floating point number read as a density (not part of the code; used in statements). -/
noncomputable def toENN : Fl → ℝ≥0∞
  | fin r => ENNReal.ofReal r
  | ninf => 0
  | pinf => ⊤
  | nan => ⊤

/-- Reference measure of a family: counting for discrete responses, length for continuous ones (statements only). -/
noncomputable def base : Fam.FamKind → Measure ℝ
  | .binomial _ => Measure.count
  | .poisson => Measure.count
  | _ => volume

/-- The measure with log density `lp` (statements only). -/
noncomputable def law (fam : Fam.FamKind) (mu s : ℝ) : Measure ℝ := (base fam).withDensity fun y => toENN (Fl.exp (fam.lp y mu s))

/-- The measure with log density `ScaledT.lp` (statements only). -/
noncomputable def lawT (m mu th0 th1 : ℝ) : Measure ℝ := volume.withDensity fun y => ENNReal.ofReal (Real.exp (ScT.lp m y mu th0 th1))

/-! ### Scaled t -/

/-- `ScaledT.V` (2046-2054). -/
noncomputable def stV (m th0 th1 : ℝ) : ℝ := ScT.phi th0 ^ 2 * ScT.nu m th1 / (ScT.nu m th1 - 2)

/-- `ScaledT.Ed2Ddmu` (2359-2368). -/
noncomputable def stEd2 (m th0 th1 : ℝ) : ℝ := 2 * ((ScT.nu m th1 + 1) / ScT.phi th0 ^ 2 / (ScT.nu m th1 + 3))

/-! ### Distribution functions -/

/-- scipy `norm.logcdf(x, loc, scale)`: the standard normal distribution function at `(x - loc) / scale`. -/
noncomputable def normLogcdf (x loc scale : ℝ) : ℝ := Real.log ((gaussianReal 0 1).real (Set.Iic ((x - loc) / scale)))

/-- scipy `gamma.logcdf(x, a, scale)`: the standard gamma distribution function at `x / scale`. -/
noncomputable def gammaLogcdf (x a scale : ℝ) : ℝ := Real.log ((gammaMeasure a 1).real (Set.Iic (x / scale)))

/-- `GAUMLSS.lcp` (2814-2816). -/
noncomputable def gauLcp (y mu sigma : ℝ) : ℝ := normLogcdf y mu sigma

/-- `GAMMALS.lcp` (3375-3379). -/
noncomputable def gamLcp (y mu scale : ℝ) : ℝ :=
  let alpha := 1 / scale
  let beta := alpha / mu
  gammaLogcdf y alpha (1 / beta)

/-! ### Simulation -/

/-- scipy `norm.rvs(loc, scale)`: `loc + scale * z` with standard normal `z`. -/
noncomputable def normRvs (loc scale : ℝ) : Measure ℝ := (gaussianReal 0 1).map fun z => loc + scale * z

/-- scipy `gamma.rvs(a, scale)`: `scale * g` with standard gamma `g`. -/
noncomputable def gammaRvs (a scale : ℝ) : Measure ℝ := (gammaMeasure a 1).map fun g => scale * g

/-- Law of an entry of `GAUMLSS.rvs` (2914-2921). -/
noncomputable def gauRvs (mu sigma : ℝ) : Measure ℝ := normRvs mu sigma

/-- Law of an entry of `GAMMALS.rvs` (3486-3495). -/
noncomputable def gamRvs (mu scale : ℝ) : Measure ℝ :=
  let alpha := 1 / scale
  let beta := alpha / mu
  gammaRvs alpha (1 / beta)

/-- numpy `Generator.choice(a=K, p=p)` with `K = arange(p.size)`: a `ValueError` (`none`) unless the probabilities are nonnegative
and sum to one. -/
noncomputable def choice (p : List ℝ) : Option (Measure ℕ) :=
  open Classical in
  if (∀ x ∈ p, 0 ≤ x) ∧ p.sum = 1 then some (Measure.sum fun k : ℕ => ENNReal.ofReal (p.getD k 0) • Measure.dirac k) else none

/-- Law of an entry of `MULNOMLSS.rvs` (3195-3207). -/
noncomputable def mnRvs {K : ℕ} (mus : Fin K → ℝ) : Option (Measure ℕ) :=
  choice ((List.range (K + 1)).map fun k => Real.exp (Lss.mnLp k mus))

open Matrix in
/-- scipy `multivariate_normal.rvs(mean, cov)`: `mean + A z` with a square root `A` of the covariance matrix and independent
standard normal `z`. -/
noncomputable def mvnRvs {d : ℕ} (mean : Fin d → ℝ) (A : Matrix (Fin d) (Fin d) ℝ) : Measure (Fin d → ℝ) :=
  (Measure.pi fun _ : Fin d => gaussianReal 0 1).map fun z => mean + A *ᵥ z

open Matrix in
/-- `cov` of `MultiGauss.rvs` (5224-5226). -/
noncomputable def mgCov {d : ℕ} (θ : ℕ → ℝ) : Matrix (Fin d) (Fin d) ℝ := ((MGauss.getR d θ)ᵀ * MGauss.getR d θ)⁻¹

/-- Seeds of the rows of `MultiGauss.rvs` (5228-5238): none without a seed, one more for every row. -/
def mgSeeds (seed : Option ℤ) : ℕ → List (Option ℤ)
  | 0 => []
  | n + 1 => seed :: mgSeeds (seed.map (· + 1)) n

end Verif.Dens
