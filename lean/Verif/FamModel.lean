import Verif.Fl
import Mathlib.Probability.Distributions.Gaussian.Real
import Mathlib.Probability.Distributions.Gamma

/-!
# Model of the link functions and exponential families (`exp_fam.py`)

The elementwise formulas are transcribed in `Fl` arithmetic (`Fl.lean`).  scipy's log densities are
external functions; they are modelled as the logarithm (`Fl.log`, so `-inf` off the support) of the
density they document.
-/

namespace Verif.Fam
open Verif Fl

/-! ### Links -/

/-- The link classes of `exp_fam.py`: `Logit` (100-200), `Identity` (203-272), `LOG` (275-357),
`LOGb` (360-447, with lower bound `b`). -/
inductive LinkKind where
  | logit
  | identity
  | log
  | logb (b : ℝ)

/-- `Link.f`: `Logit.f` 118-138, `Identity.f` 215, `LOG.f` 291, `LOGb.f` 384. -/
noncomputable def LinkKind.f : LinkKind → Fl → Fl
  | .logit, mu => Fl.log (mu / (fin 1 - mu))
  | .identity, mu => mu
  | .log, mu => Fl.log mu
  | .logb b, mu => Fl.log (mu + fin b)

/-- `Link.fi`. -/
noncomputable def LinkKind.fi : LinkKind → Fl → Fl
  | .logit, eta => Fl.exp eta / (fin 1 + Fl.exp eta)
  | .identity, eta => eta
  | .log, eta => Fl.exp eta
  | .logb b, eta => Fl.exp eta - fin b

/-- `Link.dy1`: first derivative of the link. -/
noncomputable def LinkKind.dy1 : LinkKind → Fl → Fl
  | .logit, mu => fin 1 / ((fin 1 - mu) * mu)
  | .identity, _ => fin 1
  | .log, mu => fin 1 / mu
  | .logb b, mu => fin 1 / (fin b + mu)

/-- `Link.dy2`: second derivative of the link. -/
noncomputable def LinkKind.dy2 : LinkKind → Fl → Fl
  | .logit, mu => (fin 2 * mu - fin 1) / (Fl.pow mu 2 * Fl.pow (fin 1 - mu) 2)
  | .identity, _ => fin 0
  | .log, mu => fin (-1) * (fin 1 / Fl.pow mu 2)
  | .logb b, mu => fin (-1) * (fin 1 / Fl.pow (mu + fin b) 2)

/-! ### Families -/

/-- The exponential families: `Binomial` (779-963, with `n` trials), `Gaussian` (966-1110), `Gamma`
(1113-1267), `InvGauss` (1270-1423), `Poisson` (1426-1590). -/
inductive FamKind where
  | binomial (n : ℕ)
  | gaussian
  | gamma
  | invGauss
  | poisson

/-- `Family.twopar`: whether the family has a scale parameter (constructors 809, 989, 1136, 1295,
1444). -/
def FamKind.twopar : FamKind → Bool
  | .binomial _ => false
  | .gaussian => true
  | .gamma => true
  | .invGauss => true
  | .poisson => false

/-- `V`: variance functions, lines 852, 1011, 1155, 1314, 1462. -/
noncomputable def FamKind.V : FamKind → Fl → Fl
  | .binomial n, mu => mu * (fin 1 - mu) / fin n
  | .gaussian, _ => fin 1
  | .gamma, mu => Fl.pow mu 2
  | .invGauss, mu => Fl.pow mu 3
  | .poisson, mu => mu

/-- `dVy1`: derivatives of the variance functions, lines 870, 1029, 1173, 1332, 1480. -/
noncomputable def FamKind.dVy1 : FamKind → Fl → Fl
  | .binomial n, mu => (fin 1 - fin 2 * mu) / fin n
  | .gaussian, _ => fin 0
  | .gamma, mu => fin 2 * mu
  | .invGauss, mu => fin 3 * Fl.pow mu 2
  | .poisson, _ => fin 1

/-- `D`: unit deviances, lines 951-963, 1109-1110, 1245-1247, 1401-1403, 1543-1551. -/
noncomputable def FamKind.D : FamKind → Fl → Fl → Fl
  | .binomial n, y, mu =>
    let k := y * fin n
    let kmu := mu * fin n
    let ratio1 := Fl.clean (Fl.log k - Fl.log kmu)
    let ratio2 := Fl.clean (Fl.log (fin n - k) - Fl.log (fin n - kmu))
    fin 2 * (k * ratio1 + (fin n - k) * ratio2)
  | .gaussian, y, mu => Fl.pow (y - mu) 2
  | .gamma, y, mu =>
    let diff := (y - mu) / mu
    let ratio := -(Fl.log y - Fl.log mu)
    fin 2 * (diff + ratio)
  | .invGauss, y, mu =>
    let diff := Fl.pow (y - mu) 2
    let prod := Fl.pow mu 2 * y
    diff / prod
  | .poisson, y, mu =>
    let diff := y - mu
    let ratio := Fl.clean (y * (Fl.log y - Fl.log mu))
    fin 2 * ratio - fin 2 * diff

/-- scipy `binom.pmf(k, n, p)`: zero unless `k` is an integer in `0..n`. -/
noncomputable def binomPmf (n : ℕ) (p k : ℝ) : ℝ :=
  if (⌊k⌋₊ : ℝ) = k ∧ ⌊k⌋₊ ≤ n then (n.choose ⌊k⌋₊) * p ^ ⌊k⌋₊ * (1 - p) ^ (n - ⌊k⌋₊) else 0

/-- scipy `poisson.pmf(k, lam)`: zero unless `k` is a natural number. -/
noncomputable def poissonPmf (lam k : ℝ) : ℝ :=
  if (⌊k⌋₊ : ℝ) = k then Real.exp (-lam) * lam ^ ⌊k⌋₊ / (Nat.factorial ⌊k⌋₊) else 0

/-- scipy `invgauss.pdf(x, mu, scale)`: the standardised density
`exp(-(z-mu)²/(2 z mu²)) / sqrt(2 π z³)`, `z = x/scale`, divided by `scale`. -/
noncomputable def invgaussPdf (x mu scale : ℝ) : ℝ :=
  if 0 < x then
    (Real.exp (-((x / scale - mu) ^ 2 / (2 * (x / scale) * mu ^ 2))) /
      Real.sqrt (2 * Real.pi * (x / scale) ^ 3)) / scale
  else 0

/-- scipy `gamma.pdf(x, a, scale)`. -/
noncomputable def gammaPdf (x a scale : ℝ) : ℝ := ProbabilityTheory.gammaPDFReal a (1 / scale) x

/-- scipy `norm.pdf(x, loc, scale)` with standard deviation `scale`. -/
noncomputable def normPdf (x loc scale : ℝ) : ℝ :=
  ProbabilityTheory.gaussianPDFReal loc (Real.toNNReal (scale ^ 2)) x

/-- `lp`: log densities of one observation, lines 891, 1050, 1204-1206, 1360-1362, 1503-1504.
`scale` is ignored by the families without scale parameter. -/
noncomputable def FamKind.lp : FamKind → ℝ → ℝ → ℝ → Fl
  | .binomial n, y, mu, _ => Fl.log (fin (binomPmf n mu (y * n)))
  | .gaussian, y, mu, scale => Fl.log (fin (normPdf y mu (Real.sqrt scale)))
  | .gamma, y, mu, scale =>
    let alpha := 1 / scale
    let beta := alpha / mu
    Fl.log (fin (gammaPdf y alpha (1 / beta)))
  | .invGauss, y, mu, scale =>
    let lam := 1 / scale
    let nu := mu
    Fl.log (fin (invgaussPdf y (nu / lam) lam))
  | .poisson, y, mu, _ => Fl.log (fin (poissonPmf mu y))

/-- Rows of `X @ coef`. -/
def linpred {N p : ℕ} (X : Fin N → Fin p → ℝ) (coef : Fin p → ℝ) (i : Fin N) : ℝ :=
  ∑ j, X i j * coef j

/-- `family.llk(y, family.link.fi(X @ coef), scale)`: the log-likelihood as evaluated by
`GAMLSSGSMMFamily.llk` (`utils.py` 277-286) and by `dllkdlscale` (722-727).  The number of binomial
trials may differ between rows (`n: int | np.ndarray`), hence one family value per row. -/
noncomputable def llkCoef {N p : ℕ} (fam : Fin N → FamKind) (lk : LinkKind) (y : Fin N → ℝ)
    (X : Fin N → Fin p → ℝ) (scale : ℝ) (coef : Fin p → ℝ) : Fl :=
  Fl.sum fun i => match lk.fi (fin (linpred X coef i)) with
    | fin mu => (fam i).lp (y i) mu scale
    | _ => nan

/-- `Family.dllkdcoef` (649-691). -/
noncomputable def dllkdcoef {N p : ℕ} (fam : Fin N → FamKind) (lk : LinkKind) (y : Fin N → ℝ)
    (X : Fin N → Fin p → ℝ) (scale : ℝ) (coef : Fin p → ℝ) (j : Fin p) : Fl :=
  let G := fun i =>
    let mu := lk.fi (fin (linpred X coef i))
    Fl.clean ((fin (y i) - mu) / (lk.dy1 mu * (fam i).V mu))
  Fl.sum (fun i => G i * fin (X i j)) / fin scale

/-! ### PIRLS (`gamm_solvers.py`) -/

/-- Pseudo-data and Fisher weight of one observation, `PIRLS_pdat_weights` 459-461 (exponential
families). -/
noncomputable def fisherZW (fam : FamKind) (lk : LinkKind) (y mu eta : Fl) : Fl × Fl :=
  let dy1 := lk.dy1 mu
  let z := dy1 * (y - mu) + eta
  let w := fin 1 / (Fl.pow dy1 2 * fam.V mu)
  (z, w)

/-- Pseudo-data and Newton weight of one observation, `PIRLS_newton_weights` 507-526. -/
noncomputable def newtonZW (fam : FamKind) (lk : LinkKind) (y mu eta : Fl) : Fl × Fl :=
  let dy1 := lk.dy1 mu
  let dy2 := lk.dy2 mu
  let V := fam.V mu
  let dVy1 := fam.dVy1 mu
  let a := fin 1 + (y - mu) * (dVy1 / V + dy2 / dy1)
  let z := (dy1 * (y - mu) / a) + eta
  let w := a / (Fl.pow dy1 2 * V)
  (z, w)

/-- `np.isnan(w) | np.isnan(z) | np.isinf(w) | np.isinf(z)` (464, 529). -/
def invalid (zw : Fl × Fl) : Prop := ¬ (zw.1.IsFin ∧ zw.2.IsFin)

/-- The working data of all rows: `none` is the `ValueError` raised when every row is invalid
(466-469, 531-534); otherwise pseudo-data (invalid rows set to nan), weights and the flags. -/
noncomputable def workingData {N : ℕ} (zw : Fin N → Fl × Fl) :
    Option ((Fin N → Fl) × (Fin N → Fl) × (Fin N → Prop)) :=
  open Classical in
  if ∀ i, invalid (zw i) then none
  else some (fun i => if invalid (zw i) then nan else (zw i).1, fun i => (zw i).2,
    fun i => invalid (zw i))

/-- The log-likelihood of one observation as a function of its linear predictor. -/
noncomputable def lpEta (fam : FamKind) (lk : LinkKind) (y scale : ℝ) (eta : Fl) : Fl :=
  match lk.fi eta with
  | fin mu => fam.lp y mu scale
  | _ => nan

/-- Rows kept by `update_PIRLS` (`gamm_solvers.py` 590-598): those not flagged invalid. -/
noncomputable def validRows {N : ℕ} (zw : Fin N → Fl × Fl) : List (Fin N) :=
  open Classical in (List.finRange N).filter fun i => decide (¬ invalid (zw i))

/-- `yb = Wr @ z[inval == False]` with `Wr = diag(sqrt(w))` (592-597; no AR1 model). -/
noncomputable def pirlsY {N : ℕ} (zw : Fin N → Fl × Fl) : List ℝ :=
  (validRows zw).map fun i => Real.sqrt (zw i).2.val * (zw i).1.val

/-- `Xb = Wr @ X[inval == False, :]` (598; no AR1 model). -/
noncomputable def pirlsX {N p : ℕ} (zw : Fin N → Fl × Fl) (X : Fin N → Fin p → ℝ) :
    List (Fin p → ℝ) :=
  (validRows zw).map fun i j => Real.sqrt (zw i).2.val * X i j

/-- `isinstance(link, ...)` assignments of `is_canonical` (812, 990, 1137, 1296, 1445). -/
def isCanonical : FamKind → LinkKind → Bool
  | .binomial _, .logit => true
  | .gaussian, .identity => true
  | .poisson, .log => true
  | _, _ => false

end Verif.Fam
