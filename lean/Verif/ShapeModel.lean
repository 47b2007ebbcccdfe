import Verif.StepModel
import Verif.ScaledTModel
import Mathlib.LinearAlgebra.Matrix.Notation
import Mathlib.Analysis.Normed.Group.Constructions
import Mathlib.Data.Matrix.Mul

/-!
# Estimation of the shape parameters of extended families

`updateTheta` (gamm_solvers.py 2552-2635) in full: the test for convergence, the Newton step with raised eigenvalues, the step length
control (`Verif.Step.thetaInner`) and what is returned.  `mu` and `y` are fixed during a call.
-/

namespace Verif.Shape
open Verif Matrix Step

/-- What `updateTheta` reads: `family.llk(y, mu, ·)`, `family.gradientLTheta(y, mu, ·)`, `family.hessianLTheta(y, mu, ·)` (2579-2581) and
`scp.linalg.eigh` (2592), for `m` shape parameters. -/
structure In (m : ℕ) where
  llk : (Fin m → ℝ) → Fl
  grad : (Fin m → ℝ) → Fin m → ℝ
  hess : (Fin m → ℝ) → Matrix (Fin m) (Fin m) ℝ
  eigh : Matrix (Fin m) (Fin m) ℝ → (Fin m → ℝ) × Matrix (Fin m) (Fin m) ℝ

variable {m : ℕ}

/-- `np.max(np.abs(grad)) < 1e-7 * abs(cllk)` (2587).  The norm of a vector of `Fin m → ℝ` is the largest absolute value of its entries;
`grad` is finite. -/
def test (g : Fin m → ℝ) : Fl → Prop
  | .fin u => ‖g‖ < 1e-7 * |u|
  | .nan => False
  | _ => True

/-- `max(np.abs(eig))` (2595). -/
noncomputable def maxev (e : Fin m → ℝ) : ℝ := ‖e‖

/-- `eig = [max(e, 1e-5 * maxev) for e in eig]` (2596). -/
noncomputable def raise (e : Fin m → ℝ) : Fin m → ℝ := fun i => max (e i) (1e-5 * maxev e)

/-- `INH = U @ np.diag([1 / e for e in eig]) @ U.T` (2599). -/
noncomputable def inh (e : Fin m → ℝ) (U : Matrix (Fin m) (Fin m) ℝ) : Matrix (Fin m) (Fin m) ℝ :=
  U * diagonal (fun i => 1 / e i) * Uᵀ

open Classical in
/-- `nTheta = theta + INH @ grad` (2592-2600).  `none` if all eigenvalues are zero: then `1 / e` is infinite, the products with zeros in
`U` and `np.diag` are `nan`, and so are `nTheta`, all its halvings and their log-likelihoods. -/
noncomputable def proposal (x : In m) (theta : Fin m → ℝ) : Option (Fin m → ℝ) :=
  let (eig, U) := x.eigh (-x.hess theta)
  if maxev eig = 0 then none
  else some (theta + inh (raise eig) U *ᵥ x.grad theta)

/-- Proposal and step length control (2592-2622); `none`: no suitable update. -/
noncomputable def improve (x : In m) (theta : Fin m → ℝ) (cllk : Fl) : Option (Fin m → ℝ) :=
  match proposal x theta with
  | none => none
  | some nt => thetaInner x.llk theta cllk 32 0 nt

/-- How a call ends: the test for convergence is met (2588-2589), no suitable update is found (2614, `theta` is returned at once), or the
iterations are used up (2632-2633, the only case with a warning). -/
inductive How
  | converged
  | gaveUp
  | warned
  deriving DecidableEq

open Classical in
/-- The loop (2584-2630) with `left` iterations to go. -/
noncomputable def loop (x : In m) : ℕ → (Fin m → ℝ) → Fl → (Fin m → ℝ) × How
  | 0, theta, _ => (theta, .warned)
  | left + 1, theta, cllk =>
    if test (x.grad theta) cllk then (theta, .converged)
    else match improve x theta cllk with
      | none => (theta, .gaveUp)
      | some nt => loop x left nt (x.llk nt)

/-- `updateTheta(mu, y, family)` (2552-2635), `theta` being `family.theta`. -/
noncomputable def updateTheta (x : In m) (theta : Fin m → ℝ) : (Fin m → ℝ) × How := loop x 200 theta (x.llk theta)

/-- The scaled t family: `ScaledT.llk`, `gradientLTheta`, `hessianLTheta` (exp_fam.py 2127-2158, 2370-2514) as modelled in `Verif.ScT`;
`a` is `min_df`. -/
noncomputable def scaledT {n : ℕ} (a : ℝ) (y mu : Fin n → ℝ)
    (eigh : Matrix (Fin 2) (Fin 2) ℝ → (Fin 2 → ℝ) × Matrix (Fin 2) (Fin 2) ℝ) : In 2 where
  llk := fun th => .fin (ScT.llk a y mu (th 0) (th 1))
  grad := fun th => ![ScT.grad0 a y mu (th 0) (th 1), ScT.grad1 a y mu (th 0) (th 1)]
  hess := fun th => !![ScT.hess00 a y mu (th 0) (th 1), ScT.hess01 a y mu (th 0) (th 1);
    ScT.hess01 a y mu (th 0) (th 1), ScT.hess11 a y mu (th 0) (th 1)]
  eigh := eigh

/-- `ScaledT.init_theta` (exp_fam.py 2020). -/
noncomputable def initTheta : Fin 2 → ℝ := ![0.5, 10]

end Verif.Shape
