import Verif.FamModel
import Verif.DigammaLemmas

/-!
# Model of the location-scale families (`exp_fam.py`: `GAUMLSS` 2745-2971, `MULNOMLSS` 2974-3292,
`GAMMALS` 3295-3550)

One observation at a time (all methods are elementwise; `llk` sums `lp`).  The formulas are finite
for admissible parameters, so real arithmetic is used; log densities are the logarithm of the
density documented by scipy (`FamModel.lean`).
-/

namespace Verif.Lss
open Verif

/-! ### GAUMLSS -/

/-- `GAUMLSS.lp` (2792-2794). -/
noncomputable def gauLp (y mu sigma : ℝ) : ℝ := Real.log (Fam.normPdf y mu sigma)

/-- `GAUMLSS.dpars`, order `d1`, index 0 (2871). -/
noncomputable def gauD1mu (y mu sigma : ℝ) : ℝ := (1 / sigma ^ 2) * (y - mu)

/-- `GAUMLSS.dpars`, order `d1`, index 1 (2873). -/
noncomputable def gauD1sigma (y mu sigma : ℝ) : ℝ := ((y - mu) ^ 2 - sigma ^ 2) / sigma ^ 3

/-- `GAUMLSS.dpars`, order `d2`, index 0 (2879). -/
noncomputable def gauD2mu (_y _mu sigma : ℝ) : ℝ := -(1 / sigma ^ 2)

/-- `GAUMLSS.dpars`, order `d2`, index 1 (2881). -/
noncomputable def gauD2sigma (_y _mu sigma : ℝ) : ℝ := -(2 / sigma ^ 2)

/-- `GAUMLSS.dpars`, order `d2m`, index 0 (2887). -/
noncomputable def gauD2m (_y _mu _sigma : ℝ) : ℝ := 0

/-- `GAUMLSS.get_resid` (2941-2945). -/
noncomputable def gauResid (y mu sigma : ℝ) : ℝ := (y - mu) / sigma

/-! ### GAMMALS -/

/-- `GAMMALS.lp` (3351-3355). -/
noncomputable def gamLp (y mu scale : ℝ) : ℝ :=
  let alpha := 1 / scale
  let beta := alpha / mu
  Real.log (Fam.gammaPdf y alpha (1 / beta))

/-- `GAMMALS.dpars`, order `d1`, index 0 (3434). -/
noncomputable def gamD1mu (y mu scale : ℝ) : ℝ := (y - mu) / (scale * mu ^ 2)

/-- `GAMMALS.dpars`, order `d1`, index 1 (3436-3443). -/
noncomputable def gamD1scale (y mu scale : ℝ) : ℝ :=
  (1 / scale ^ 2) * ((y / mu) - Real.log y + Real.log mu + Real.log scale - 1 + digamma (1 / scale))

/-- `GAMMALS.dpars`, order `d2`, index 0 (3449). -/
noncomputable def gamD2mu (_y mu scale : ℝ) : ℝ := -1 / (scale * mu ^ 2)

/-- `GAMMALS.dpars`, order `d2`, index 1 (3451-3453). -/
noncomputable def gamD2scale (_y _mu scale : ℝ) : ℝ :=
  (1 / scale ^ 3) - (1 / scale ^ 4) * trigamma (1 / scale)

/-- `GAMMALS.dpars`, order `d2m`, index 0 (3459). -/
noncomputable def gamD2m (_y _mu _scale : ℝ) : ℝ := 0

/-! ### MULNOMLSS

`mus : Fin K → ℝ` are the `n_par = K` means, `y` is the class (`0, 1, ..., K`). -/

/-- `np.sum(mus, axis=0) + 1`. -/
noncomputable def norm {K : ℕ} (mus : Fin K → ℝ) : ℝ := (∑ i, mus i) + 1

/-- `MULNOMLSS.lp` (3051-3056). -/
noncomputable def mnLp {K : ℕ} (y : ℕ) (mus : Fin K → ℝ) : ℝ :=
  -Real.log (norm mus) + ∑ pi : Fin K, if y = pi.val + 1 then Real.log (mus pi) else 0

/-- `MULNOMLSS.lcp` (3080-3092). -/
noncomputable def mnLcp {K : ℕ} (y : ℕ) (mus : Fin K → ℝ) : ℝ :=
  let lcp := ∑ pi : Fin K, if y > pi.val then mus pi else 0
  let lcp := if y > 0 then Real.log lcp else lcp
  let lcp := lcp - Real.log (norm mus)
  if y = 0 then 0 else lcp

/-- `__dpairs` (3006-3009): the pairs `(i, j)`, `i < j < n_par`, in loop order. -/
def dpairs (K : ℕ) : List (ℕ × ℕ) :=
  (List.range K).flatMap fun i => (List.range' (i + 1) (K - (i + 1))).map fun j => (i, j)

/-- `MULNOMLSS.dpars`, order `d1` (3145-3151), derivative in the linear predictor; `none` is the
`ValueError`. -/
noncomputable def mnD1 {K : ℕ} (y : ℕ) (mus : Fin K → ℝ) (index : ℕ) : Option ℝ :=
  if h : index < K then
    some (-(mus ⟨index, h⟩ / norm mus) + if y = index + 1 then 1 else 0)
  else none

/-- `MULNOMLSS.dpars`, order `d2` (3153-3160). -/
noncomputable def mnD2 {K : ℕ} (mus : Fin K → ℝ) (index : ℕ) : Option ℝ :=
  if h : index < K then
    let dy1 := -(mus ⟨index, h⟩ / norm mus)
    some (dy1 + mus ⟨index, h⟩ ^ 2 / norm mus ^ 2)
  else none

/-- `MULNOMLSS.dpars`, order `d2m` (3162-3172). -/
noncomputable def mnD2m {K : ℕ} (mus : Fin K → ℝ) (index : ℕ) : Option ℝ :=
  match (dpairs K)[index]? with
  | some (i, j) =>
    if h : i < K ∧ j < K then some ((mus ⟨i, h.1⟩ * mus ⟨j, h.2⟩) / norm mus ^ 2) else none
  | none => none

/-- `MULNOMLSS.get_probs` (3285-3292), column `k`. -/
noncomputable def mnProb {K : ℕ} (mus : Fin K → ℝ) (k : ℕ) : ℝ := Real.exp (mnLp k mus)

/-- `comp = [0, *np.arange(self.n_par, 0, -1)]` (3240). -/
def comp (K : ℕ) : List ℕ := 0 :: (List.range' 1 K).reverse

/-- `MULNOMLSS.get_resid`, the interval of one observation of class `y` (3237-3257): start from
`(0, 0)`, run over the consecutive pairs of `comp` and assign the bounds when the class is the one
under consideration, finally set the upper bound of class 1. -/
noncomputable def mnInterval {K : ℕ} (y : ℕ) (mus : Fin K → ℝ) : ℝ × ℝ :=
  let c := comp K
  let iv := (List.range (c.length - 1)).foldl (fun iv yi =>
    if y = c.getD yi 0 then
      (Real.exp (mnLcp (c.getD (yi + 1) 0) mus), Real.exp (mnLcp (c.getD yi 0) mus))
    else iv) ((0 : ℝ), (0 : ℝ))
  if y = 1 then (iv.1, Real.exp (mnLcp 1 mus)) else iv

/-- The uniform residual before the normal quantile transform (3259-3268), as a function of the
standard uniform draw: scipy's `uniform.rvs(loc, scale)` is `loc + scale * u`. -/
noncomputable def mnURes {K : ℕ} (y : ℕ) (mus : Fin K → ℝ) (u : ℝ) : ℝ :=
  (mnInterval y mus).1 + ((mnInterval y mus).2 - (mnInterval y mus).1) * u

end Verif.Lss
