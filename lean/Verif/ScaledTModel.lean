import Verif.DigammaLemmas
import Verif.FamModel
import Mathlib.Analysis.SpecialFunctions.ExpDeriv

/-!
# Model of the scaled t family (`exp_fam.py`, class `ScaledT`, 1959-2514) and of the
`ExtendedFamily` branches of the working data (`gamm_solvers.py`) and of the gradient
(`utils.py`)

Every formula of the class is finite for real arguments (the argument of the logarithm is at least
one), so the model uses real arithmetic.  `th0`, `th1` are `theta[0, 0]`, `theta[1, 0]`; `m` is
`min_df`.  Special functions: see `DigammaLemmas.lean`.
-/

namespace Verif.ScT
open Verif

/-- `phi = np.exp(theta[0, 0])`. -/
noncomputable def phi (th0 : ℝ) : ℝ := Real.exp th0

/-- `nu = np.exp(theta[1, 0]) + self.min_df`. -/
noncomputable def nu (m th1 : ℝ) : ℝ := Real.exp th1 + m

/-- `lp` (2115-2125), with `np.log1p(x) = log (1 + x)` and `np.power(x, 0.5) = sqrt x`. -/
noncomputable def lp (m y mu th0 th1 : ℝ) : ℝ :=
  -1 * (-gammaln ((nu m th1 + 1) / 2) + gammaln (nu m th1 / 2) +
    Real.log (phi th0 * Real.sqrt (Real.pi * nu m th1)) +
    (nu m th1 + 1) * Real.log (1 + ((y - mu) / phi th0) ^ 2 / nu m th1) / 2)

/-- `llk` (2158). -/
noncomputable def llk {n : ℕ} (m : ℝ) (y mu : Fin n → ℝ) (th0 th1 : ℝ) : ℝ :=
  ∑ i, lp m (y i) (mu i) th0 th1

/-- `D` (2199). -/
noncomputable def D (m y mu th0 th1 : ℝ) : ℝ :=
  (nu m th1 + 1) * Real.log (1 + ((y - mu) / phi th0) ^ 2 / nu m th1)

/-- `dDdmu` (2275-2279). -/
noncomputable def dDdmu (m y mu th0 th1 : ℝ) : ℝ :=
  let ymu := y - mu
  (-2) * (((nu m th1 + 1) * ymu) /
    (nu m th1 * ((phi th0) ^ 2 * (1 + (ymu / phi th0) ^ 2 / nu m th1))))

/-- `d2Ddmu` (2322-2325). -/
noncomputable def d2Ddmu (m y mu th0 th1 : ℝ) : ℝ :=
  let ymu := y - mu
  let sig2a := (phi th0) ^ 2 * (1 + (ymu / phi th0) ^ 2 / nu m th1)
  2 * ((nu m th1 + 1) * (1 / (nu m th1 * sig2a) - 2 * (ymu / (nu m th1 * sig2a)) ^ 2))

/-- `a` of `gradientLTheta`/`hessianLTheta` (2409, 2470). -/
noncomputable def a (m y mu th0 th1 : ℝ) : ℝ := 1 + ((y - mu) / phi th0) ^ 2 / nu m th1

/-- `nusig2a` (2412, 2473). -/
noncomputable def nusig2a (m y mu th0 th1 : ℝ) : ℝ :=
  nu m th1 * (phi th0) ^ 2 * a m y mu th0 th1

/-- `fymu` (2410-2414, 2471-2476). -/
noncomputable def fymu (m y mu th0 th1 : ℝ) : ℝ :=
  (nu m th1 + 1) * (y - mu) / nusig2a m y mu th0 th1 * (y - mu)

/-- `f1ymu` (2475, 2477). -/
noncomputable def f1ymu (m y mu th0 th1 : ℝ) : ℝ :=
  (y - mu) / nusig2a m y mu th0 th1 * (y - mu)

/-- `gradientLTheta[0, 0]` (2402-2431). -/
noncomputable def grad0 {n : ℕ} (m : ℝ) (y mu : Fin n → ℝ) (th0 th1 : ℝ) : ℝ :=
  -1 * (0.5 * (∑ i, -2 * fymu m (y i) (mu i) th0 th1) + n)

/-- `gradientLTheta[1, 0]` (2402-2431). -/
noncomputable def grad1 {n : ℕ} (m : ℝ) (y mu : Fin n → ℝ) (th0 th1 : ℝ) : ℝ :=
  -1 * (0.5 * (∑ i, (nu m th1 - m) *
      (Real.log (a m (y i) (mu i) th0 th1) - fymu m (y i) (mu i) th0 th1 / nu m th1)) -
    n * ((nu m th1 - m) * digamma ((nu m th1 + 1) / 2) / 2
      - (nu m th1 - m) * digamma (nu m th1 / 2) / 2
      - 0.5 * ((nu m th1 - m) / nu m th1)))

/-- `hessianLTheta[0, 0]` (2482, 2496, 2500, 2514). -/
noncomputable def hess00 {n : ℕ} (m : ℝ) (y mu : Fin n → ℝ) (th0 th1 : ℝ) : ℝ :=
  -1 * (0.5 * ∑ i, 4 * fymu m (y i) (mu i) th0 th1 * (1 - f1ymu m (y i) (mu i) th0 th1))

/-- `hessianLTheta[0, 1] = hessianLTheta[1, 0]` (2491-2500, 2514). -/
noncomputable def hess01 {n : ℕ} (m : ℝ) (y mu : Fin n → ℝ) (th0 th1 : ℝ) : ℝ :=
  -1 * (0.5 * ∑ i, 2 * (fymu m (y i) (mu i) th0 th1 -
      (y i - mu i) * ((y i - mu i) / ((phi th0) ^ 2 * a m (y i) (mu i) th0 th1)) -
      fymu m (y i) (mu i) th0 th1 * f1ymu m (y i) (mu i) th0 th1) * ((nu m th1 - m) / nu m th1))

/-- `hessianLTheta[1, 1]` (2483-2490, 2497, 2500-2514). -/
noncomputable def hess11 {n : ℕ} (m : ℝ) (y mu : Fin n → ℝ) (th0 th1 : ℝ) : ℝ :=
  let e := nu m th1 - m
  let v := nu m th1
  (-1) * (0.5 * (∑ i, (e * Real.log (a m (y i) (mu i) th0 th1) + (e / v) * (y i - mu i) ^ 2 *
      (-2 * e - (v + 1) + 2 * (v + 1) * (e / v) -
        (v + 1) * (e / v) * f1ymu m (y i) (mu i) th0 th1) / nusig2a m (y i) (mu i) th0 th1)) -
    n * (e ^ 2 * trigamma ((v + 1) / 2) / 4 + e * digamma ((v + 1) / 2) / 2
      - e ^ 2 * trigamma (v / 2) / 4 - e * digamma (v / 2) / 2
      + 0.5 * (e / v) ^ 2 - 0.5 * (e / v)))

/-- Weight and pseudo-response of `PIRLS_newton_weights` for extended families (511-517); `d1`, `d2`
are `dDdmu`, `d2Ddmu` at the current mean.  `PIRLS_pdat_weights` (449-457) is the same formula with
`Ed2Ddmu` in place of `d2Ddmu`. -/
noncomputable def extZW (lk : Fam.LinkKind) (d1 d2 : Fl) (mu eta : Fl) : Fl × Fl :=
  let dy1 := lk.dy1 mu
  let dy2 := lk.dy2 mu
  let dDde := d1 / dy1
  let d2Dde := d2 / Fl.pow dy1 2 - d1 * dy2 / Fl.pow dy1 3
  let w := Fl.fin 0.5 * d2Dde
  let z := eta - ((Fl.fin 1 / (Fl.fin 2 * w)) * dDde)
  (z, w)

/-- `GAMLSSGSMMFamily.llk` for an extended family (`utils.py` 271-274): the coefficients are those
of the linear predictor; `theta` is held in the trailing entries. -/
noncomputable def llkCoef {N p : ℕ} (lk : Fam.LinkKind) (m : ℝ) (y : Fin N → ℝ)
    (X : Fin N → Fin p → ℝ) (th0 th1 : ℝ) (coef : Fin p → ℝ) : Fl :=
  Fl.sum fun i => match lk.fi (Fl.fin (Fam.linpred X coef i)) with
    | .fin mu => .fin (lp m (y i) mu th0 th1)
    | _ => .nan

/-- `GAMLSSGSMMFamily.gradient` for an extended family, coefficient part (`utils.py` 338-342).
The code evaluates the link derivative at `d1`, not at the mean:
`ld1 = gammlss_family.link.dy1(d1)`. -/
noncomputable def gradCoef {N p : ℕ} (lk : Fam.LinkKind) (m : ℝ) (y : Fin N → ℝ)
    (X : Fin N → Fin p → ℝ) (th0 th1 : ℝ) (coef : Fin p → ℝ) (j : Fin p) : Fl :=
  Fl.fin (-0.5) * Fl.sum fun i =>
    (match lk.fi (Fl.fin (Fam.linpred X coef i)) with
    | .fin mu =>
      let d1 := Fl.fin (dDdmu m (y i) mu th0 th1)
      let ld1 := lk.dy1 d1
      d1 / ld1
    | _ => .nan) * Fl.fin (X i j)

end Verif.ScT
