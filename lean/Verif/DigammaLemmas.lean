import Mathlib.Analysis.SpecialFunctions.Gamma.Deriv
import Mathlib.Analysis.Complex.RealDeriv
import Mathlib.Analysis.Complex.CauchyIntegral
import Mathlib.Analysis.SpecialFunctions.Log.Deriv
import Mathlib.Analysis.Calculus.Deriv.Mul
import Mathlib.Analysis.Calculus.Deriv.Inv

/-!
# Digamma and trigamma on the positive reals

`scipy.special.gammaln`, `digamma` and `polygamma(1, ·)` are external functions; they are modelled
as the logarithm of the Gamma function and its first two derivatives.
-/

namespace Verif

/-- `scipy.special.gammaln` (positive argument). -/
noncomputable def gammaln (x : ℝ) : ℝ := Real.log (Real.Gamma x)

/-- `scipy.special.digamma`. -/
noncomputable def digamma (x : ℝ) : ℝ := deriv gammaln x

/-- `scipy.special.polygamma(1, x)`. -/
noncomputable def trigamma (x : ℝ) : ℝ := deriv digamma x

private theorem cgamma_diffOn : DifferentiableOn ℂ Complex.Gamma {s : ℂ | 0 < s.re} := by
  intro s hs
  refine (Complex.differentiableAt_Gamma s fun m hm => ?_).differentiableWithinAt
  have h : s.re = -(m : ℝ) := by rw [hm]; simp
  have hs' : 0 < s.re := hs
  have : (0 : ℝ) ≤ m := Nat.cast_nonneg m
  linarith

private theorem half_open : IsOpen {s : ℂ | 0 < s.re} := isOpen_lt continuous_const Complex.continuous_re

theorem Gamma_hasDeriv {x : ℝ} (hx : 0 < x) :
    HasDerivAt Real.Gamma (deriv Complex.Gamma x).re x := by
  have hd : HasDerivAt Complex.Gamma (deriv Complex.Gamma x) x :=
    ((cgamma_diffOn (x : ℂ) (by simpa using hx)).differentiableAt
      (half_open.mem_nhds (by simpa using hx))).hasDerivAt
  have := hd.real_of_complex
  refine this.congr_of_eventuallyEq (Filter.Eventually.of_forall fun t => ?_)
  show Real.Gamma t = (Complex.Gamma (t : ℂ)).re
  rw [Complex.Gamma_ofReal, Complex.ofReal_re]

theorem dGamma_hasDeriv {x : ℝ} (hx : 0 < x) :
    HasDerivAt (fun t : ℝ => (deriv Complex.Gamma t).re) (deriv (deriv Complex.Gamma) x).re x := by
  have hd : HasDerivAt (deriv Complex.Gamma) (deriv (deriv Complex.Gamma) x) x :=
    (((cgamma_diffOn.deriv half_open) (x : ℂ) (by simpa using hx)).differentiableAt
      (half_open.mem_nhds (by simpa using hx))).hasDerivAt
  exact hd.real_of_complex

theorem gammaln_hasDeriv {x : ℝ} (hx : 0 < x) : HasDerivAt gammaln (digamma x) x := by
  have h := (Gamma_hasDeriv hx).log (Real.Gamma_pos_of_pos hx).ne'
  exact h.differentiableAt.hasDerivAt

theorem digamma_eq {x : ℝ} (hx : 0 < x) :
    digamma x = (deriv Complex.Gamma x).re / Real.Gamma x :=
  ((Gamma_hasDeriv hx).log (Real.Gamma_pos_of_pos hx).ne').deriv

theorem digamma_hasDeriv {x : ℝ} (hx : 0 < x) : HasDerivAt digamma (trigamma x) x := by
  have h := (dGamma_hasDeriv hx).div (Gamma_hasDeriv hx) (Real.Gamma_pos_of_pos hx).ne'
  have he : digamma =ᶠ[nhds x] ((fun t : ℝ => (deriv Complex.Gamma t).re) / Real.Gamma) := by
    filter_upwards [isOpen_Ioi.mem_nhds (show x ∈ Set.Ioi (0 : ℝ) from hx)] with t ht
    exact digamma_eq ht
  exact (h.congr_of_eventuallyEq he).differentiableAt.hasDerivAt

end Verif
