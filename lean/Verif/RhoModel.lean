import Mathlib.Data.EReal.Operations
import Mathlib.Analysis.SpecialFunctions.Log.Basic
import Mathlib.LinearAlgebra.Matrix.PosDef
import Mathlib.Algebra.Order.Star.Real

/-!
# Priors and weights for log smoothing parameters, corrected degrees of freedom (properties C50, C68)

Model of src/mssm/src/python/utils.py: `MVUniformRhoPrior` (3499-3548), `CenteredUniformRhoPriors` (3551-3627), the weights
(2882-2902, 4347-4367), `updateVp` (2936-2965), and the last part of `correct_VB` (4520-4734).  `-np.inf` is `⊥`.
Matrices are square over a finite index type; samples are indexed by `Fin (m + 1)`.
-/

namespace Verif.Rho

open Matrix

/-- `MVUniformRhoPrior.logpdf` (3511-3528) for one row. -/
noncomputable def mvLogpdf (a b : ℝ) {k : ℕ} (rho : Fin k → ℝ) : EReal := open Classical in
  if (∃ i, rho i < a) ∨ (∃ i, b < rho i) then ⊥ else (((k : ℝ) * -Real.log (b - a) : ℝ) : EReal)

/-- `MVUniformRhoPrior.make_valid` (3530-3548): the two assignments in turn. -/
noncomputable def mvValid (a b : ℝ) {k : ℕ} (rho : Fin k → ℝ) (i : Fin k) : ℝ :=
  let r := if rho i < a then 9 / 10 * a else rho i
  if r > b then 9 / 10 * b else r

/-- Lower boundaries of `CenteredUniformRhoPriors` (3574). -/
noncomputable def cLow (a c : ℝ) {k : ℕ} (mrho : Fin k → ℝ) (i : Fin k) : ℝ := max (mrho i - c) a

/-- Upper boundaries (3575). -/
noncomputable def cUp (b c : ℝ) {k : ℕ} (mrho : Fin k → ℝ) (i : Fin k) : ℝ := min (mrho i + c) b

/-- `CenteredUniformRhoPriors.logpdf` (3581-3602) for one row: every coordinate adds its log density, invalid ones then set `-inf`. -/
noncomputable def cLogpdf {k : ℕ} (lo up : Fin k → ℝ) (rho : Fin k → ℝ) : EReal :=
  (List.finRange k).foldl (fun ld i => if rho i < lo i ∨ rho i > up i then ⊥ else ld + ((-Real.log (up i - lo i) : ℝ) : EReal)) 0

/-- `CenteredUniformRhoPriors.make_valid` (3604-3627). -/
noncomputable def cValid {k : ℕ} (lo up : Fin k → ℝ) (rho : Fin k → ℝ) (i : Fin k) : ℝ :=
  if rho i > up i then 9 / 10 * up i else if rho i < lo i then 9 / 10 * lo i else rho i

/-- Exponential of a score that may be `-inf` (`none`). -/
noncomputable def expO : Option ℝ → ℝ
  | none => 0
  | some x => Real.exp x

/-- `scp.special.softmax` (2887, 2898, 2902; 4352, 4363, 4367); `none` (nan) when all scores are `-inf`. -/
noncomputable def softmax {m : ℕ} (s : Fin m → Option ℝ) (i : Fin m) : Option ℝ :=
  if ∑ j, expO (s j) = 0 then none else some (expO (s i) / ∑ j, expO (s j))

/-- Scores with a prior (2892-2898, 4357-4363): REML plus log prior minus log proposal density. -/
noncomputable def score (reml : ℝ) (logp : EReal) (logq : ℝ) : Option ℝ :=
  if logp = ⊥ then none else some (reml + logp.toReal - logq)

/-- Diagonal of the root of `Vp` (2916-2917). -/
noncomputable def rootD (e : ℝ) : ℝ := if e > 0 then √e else 0

/-- Diagonal of the regularised root (2927-2928). -/
noncomputable def rootR (e : ℝ) : ℝ := if e > 0 then 1 / (1 / √e + 1 / 10) else 0

variable {n : Type} [Fintype n]

/-- `Ri.T @ Ri` (2918-2920, 2929-2931) with `Ri = diag(d) @ U.T`. -/
def fromRoot [DecidableEq n] (U : Matrix n n ℝ) (d : n → ℝ) : Matrix n n ℝ := (diagonal d * Uᵀ)ᵀ * (diagonal d * Uᵀ)

/-- Weighted mean (2907-2909). -/
def wmean {m : ℕ} (w : Fin m → ℝ) (x : Fin m → n → ℝ) : n → ℝ := fun i => ∑ r, w r * x r i

/-- `updateVp` (2958-2965). -/
def updateVp {m : ℕ} (ep : n → ℝ) (w : Fin m → ℝ) (x : Fin m → n → ℝ) : Matrix n n ℝ :=
  ∑ r, w r • vecMulVec (x r - ep) (x r - ep)

/-- `Vr1 + Vr2 - Vr3 @ Vr3.T` (4606-4643). -/
def covJ3 {m : ℕ} (w : Fin m → ℝ) (V : Fin m → Matrix n n ℝ) (coef : Fin m → n → ℝ) : Matrix n n ℝ :=
  (∑ r, w r • V r) + (∑ r, w r • vecMulVec (coef r) (coef r)) - vecMulVec (wmean w coef) (wmean w coef)

/-- Covariance and negative Hessian used (4573-4598), grid type JJJ2: `Vb` is the covariance given the estimate. -/
noncomputable def pickJ2 {k : Type} [Fintype k] {m : ℕ} (w : Fin m → ℝ) (V : Fin m → Matrix n n ℝ) (nH H Vb : Matrix n n ℝ) (Vcr : Matrix k n ℝ)
    (edf : ℝ) : Matrix n n ℝ × Matrix n n ℝ :=
  let Vr1 := ∑ r, w r • V r
  if (Vr1 * nH).trace < edf then (Vb + Vcrᵀ * Vcr, H) else (Vr1 + Vcrᵀ * Vcr, nH)

/-- The same for JJJ3 (4600-4648): `Vlb` is the covariance of JJJ1. -/
noncomputable def pickJ3 {m : ℕ} (w : Fin m → ℝ) (V : Fin m → Matrix n n ℝ) (coef : Fin m → n → ℝ) (nH H Vlb : Matrix n n ℝ) :
    Matrix n n ℝ × Matrix n n ℝ :=
  let V3 := covJ3 w V coef
  if (Vlb * H).trace > (V3 * nH).trace then (Vlb, H) else (V3, nH)

/-- Upper bound `total_edf2` (4720-4722). -/
def bound (ucF : Matrix n n ℝ) (edf : ℝ) : ℝ := 2 * edf - ∑ j, ∑ i, ucF i j * ucFᵀ i j

/-- Results (4706-4734): `edf`, `total_edf`, `edf2`, `total_edf2`.  Once the bound is enforced the names `edf` and `edf2` refer to one
array (4728), so the update of 4734, which is in place, changes both. -/
noncomputable def correct (V nH ucF : Matrix n n ℝ) (modelEdf : ℝ) (formT1 : Bool) : (n → ℝ) × ℝ × (n → ℝ) × ℝ :=
  let F := V * nH
  let total2 := bound ucF modelEdf
  let edf2 : n → ℝ := fun j => 2 * ucF j j - ∑ i, ucF i j * ucFᵀ i j
  let clip : Prop := F.trace > total2
  open Classical in
  let total := if clip then total2 else F.trace
  let edf : n → ℝ := if clip then edf2 else fun j => F j j
  let edf2' : n → ℝ := if formT1 then fun j => edf2 j + (edf j - ucF j j) else edf2
  (if clip then edf2' else edf, total, edf2', if formT1 then total2 + (total - modelEdf) else total2)

/-- `expected_edf` (4522-4551); `J3` tells the grid type. -/
noncomputable def expectedEdf {k : Type} [Fintype k] {m : ℕ} (J3 : Bool) (w : Fin m → ℝ) (edfs : Fin m → ℝ) (coef : Fin m → n → ℝ)
    (nH : Matrix n n ℝ) (Vcr : Matrix k n ℝ) (modelEdf : ℝ) : ℝ :=
  let e := max modelEdf (∑ r, w r * edfs r)
  let t2 := (Vcr * nH * Vcrᵀ).trace
  let t3 := (∑ r, w r * (coef r ⬝ᵥ nH *ᵥ coef r)) - wmean w coef ⬝ᵥ nH *ᵥ wmean w coef
  if J3 then (if t2 > t3 then e + t2 else e + t3) else e + t2

end Verif.Rho
