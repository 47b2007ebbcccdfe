import Verif.HsmmPredModel
import Mathlib.Analysis.SpecialFunctions.Log.Basic
import Mathlib.Analysis.Real.Pi.Bounds
import Mathlib.Probability.CDF
import Mathlib.Probability.Distributions.Gaussian.Real

/-!
# Simulated noise of event models (property C104)

Model of `_sample_series_emissions` (src/mssm/src/python/hsmm.py 795-1005) for event models, and of the observation density of event
models in `_compute_series_probs` (405-428, 599-603, 627, 636).

A generator is a function from seeds to streams: `gen seed i` is the `i`-th number of `np.random.default_rng(seed).random`, `expo seed i` the
`i`-th standard exponential number of scipy for `random_state=seed`, `norm seed i` the `i`-th standard normal one.
-/

open ProbabilityTheory

namespace Verif.HSim

/-- `hmp_fam`. -/
inductive HmpFam | exponential | gaussian

/-- `ld_wrapper` (421-428): `scp.stats.expon.logpdf(x, scale=s)` is `-x / s - log(s)` for `x >= 0`, `scp.stats.norm.logpdf` with standard deviation
`sqrt(s)`. -/
noncomputable def ld (f : HmpFam) (y pred s : ℝ) : ℝ := match f with
  | .exponential => -((y - pred) ^ 2) / s - Real.log s
  | .gaussian => -((y - pred) / Real.sqrt s) ^ 2 / 2 - Real.log (Real.sqrt (2 * Real.pi)) - Real.log (Real.sqrt s)

/-- `lcp_wrapper` (410-418): `scp.stats.expon.logcdf`, `scp.stats.norm.logcdf`. The exponential of it is stored in `cbs` and read by the residuals. -/
noncomputable def lcp (f : HmpFam) (y pred s : ℝ) : ℝ := match f with
  | .exponential => Real.log (1 - Real.exp (-((y - pred) ^ 2 / s)))
  | .gaussian => Real.log (cdf (gaussianReal 0 1) ((y - pred) / Real.sqrt s))

/-- `flip` (887-888). -/
noncomputable def flip (u : ℝ) : ℝ := if u ≥ 1 / 2 then 1 else -1

/-- One number of `rvs_wrapper` (881-897) from a uniform, a standard exponential and a standard normal number. -/
noncomputable def draw (f : HmpFam) (s u x z : ℝ) : ℝ := match f with
  | .exponential => flip u * Real.sqrt (s * x)
  | .gaussian => Real.sqrt s * z

/-- Seed for state `j` and signal `k` (872-1003): one more for every signal of every state. -/
def seedOf (seed M j k : ℕ) : ℕ := seed + (j * M + k)

/-- `emissions[t, j, k, sample]` of an event model (997-1000): the numbers are drawn at once and arranged with `n` columns. -/
noncomputable def noise (f : HmpFam) (gen expo norm : ℕ → ℕ → ℝ) (s : ℝ) (seed M n : ℕ) (sample t j k : ℕ) : ℝ :=
  draw f s (gen (seedOf seed M j k) (t * n + sample)) (expo (seedOf seed M j k) (t * n + sample)) (norm (seedOf seed M j k) (t * n + sample))

end Verif.HSim
