import Verif.GaussModel
import Mathlib.LinearAlgebra.Matrix.Trace

/-!
# Passes of a whole fit of a strictly additive model (property C123)

`GaussModel` leaves open how a pass computes traces and the scale parameter.  Here they are computed as in
src/mssm/src/python/gamm_solvers.py: `compute_lgdetD_bsb` (46-100), `calculate_edf` (948-991) and `update_scale_edf` (1185-1226).

Results of other parts of the code are inputs, for every vector of smoothing parameters: pseudo-inverse and `FS_use_rank` of
`compute_S_emb_pinv_det`, the inverse of the Cholesky factor, roots and ranks of the penalties.  Real arithmetic without `nan`, no dropped
coefficients, no shared smoothing parameters, no AR1 model.
-/

namespace Verif.Equi

open Matrix

/-- Penalties and options of a fit; `known` is `family.scale`. -/
structure In (m p : ℕ) where
  S : Fin m → Matrix (Fin p) (Fin p) ℝ
  root : Fin m → Matrix (Fin p) (Fin p) ℝ
  useRank : Fin m → Bool
  rank : Fin m → ℕ
  pinv : (Fin m → ℝ) → Matrix (Fin p) (Fin p) ℝ
  Linv : (Fin m → ℝ) → Matrix (Fin p) (Fin p) ℝ
  known : Option ℝ
  extend : Bool
  exclude : Bool
  control : ℕ
  method : Lam.Method
  tol : ℝ

variable {m p : ℕ} (x : In m p)

/-- `lgdet_deriv` (92-95). -/
noncomputable def lgdetD (lam : Fin m → ℝ) (i : Fin m) : ℝ := if x.useRank i then x.rank i / lam i else (x.pinv lam * x.S i).trace

/-- `Bps` (969-970). -/
def bps (lam : Fin m → ℝ) (i : Fin m) : ℝ := ∑ a, ∑ b, (x.Linv lam * x.root i) a b ^ 2

/-- `total_edf` (948, 986-991, 1205-1218). -/
def edf (lam : Fin m → ℝ) : ℝ := p - ∑ i, lam i * bps x lam i

/-- Squared length of the residuals (1185) of coefficients; zero stands for an exception of the predictions. -/
noncomputable def resid (D : Gauss.Dat p) (b : Fin p → ℝ) : ℝ :=
  match D.eta b with
  | none => 0
  | some e => (List.zipWith (fun u v => (u - v) ^ 2) D.y e).sum

/-- `scale` (1222-1226), `est_scale`: `res.T @ res / (rows_X - total_edf)`. -/
noncomputable def scale (D : Gauss.Dat p) (lam : Fin m → ℝ) (b : Fin p → ℝ) : ℝ :=
  match x.known with
  | some φ => φ
  | none => resid D b / (D.y.length - edf x lam)

/-- Arguments of the fit of data `D`. -/
noncomputable def args (D : Gauss.Dat p) : Gauss.Args m p where
  S := x.S
  extend := x.extend
  exclude := x.exclude
  control := x.control
  method := x.method
  tol := x.tol
  lgdet := fun lam _ => lgdetD x lam
  ldet := fun lam _ => bps x lam
  scale := scale x D
  nan := fun _ => false

/-- A fit from starting values `lam`: the data decide about the scale parameter. -/
noncomputable def fit {α : Type} (src : Gauss.Src) (build : α → ℕ → ℝ) (nc : ℕ) (fs : List (Gauss.File α)) (fuel maxOuter : ℕ)
    (lam : Fin m → ℝ) (frozen : Fin m → Bool) : Option (Gauss.Out m p) :=
  match Gauss.setup src build nc fs with
  | none => none
  | some D => Gauss.outer (args x D) D fuel maxOuter 0 (Gauss.start (args x D) D lam frozen)

end Verif.Equi
