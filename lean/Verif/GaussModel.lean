import Verif.ParModel
import Verif.StepModel
import Mathlib.LinearAlgebra.Matrix.PosDef
import Mathlib.LinearAlgebra.Matrix.NonsingularInverse

/-!
# Model of a whole fit of a strictly additive model
(`gamm_solvers.py`: `solve_gamm_sparse` 2775-3130 and `solve_gamm_sparse2` 3935-4223 for `Gaussian` with identity link,
`update_coef` 1286-1364 with `method="Chol"`, `init_step_gam` 1638-1735; `eigen_solvers.cpp`: `solve_coef` 403-458,
`solve_coefXX` 461-508)

Real arithmetic.  A row of the data is a row of covariates with a response, which can be missing; `build` gives the row of
the model matrix.  Traces, log-determinants and the scale parameter enter as arbitrary functions of coefficients and
smoothing parameters.  Left out: `method="QR"`, condition numbers, the AR1 transformation of `y` and `X` before the fit (2781-2790),
impulse response terms.
-/

namespace Verif.Gauss

open Verif

variable {α : Type} {p m : ℕ}

/-- A file: covariates and response of every row; `none`: missing response. -/
abbrev File (α : Type) := List (α × Option ℝ)

/-- `cov_flat_file[NAs_flat_file, :]` (3464). -/
def covs (f : File α) : List α := f.filterMap fun r => r.2.map fun _ => r.1

/-- `y_flat_file[NAs_flat_file]` (3465, 3966). -/
def ys (f : File α) : List ℝ := f.filterMap fun r => r.2

/-- Where the data are: in a data-frame (`solve_gamm_sparse`), in files that are read again whenever they are needed, in
files whose covariates are kept (`formula.keep_cov`, 3941). -/
inductive Src | memory | files | kept

/-- What a fit needs: `X.T @ X`, `X.T @ y`, the response, and the linear predictor for given coefficients; `none`: exception. -/
structure Dat (p : ℕ) where
  XX : Matrix (Fin p) (Fin p) ℝ
  Xy : Fin p → ℝ
  y : List ℝ
  eta : (Fin p → ℝ) → Option (List ℝ)

/-- Coefficients as a function of the column number. -/
def ofFin (b : Fin p → ℝ) (j : ℕ) : ℝ := if h : j < p then b ⟨j, h⟩ else 0

/-- Setting up (2792-2797 with `solver.compute(X.transpose() * X + S)`, `X.transpose() * y` of eigen_solvers.cpp 432, 449;
3938-3986).  In memory the linear predictor is `X @ coef` (1341), for files it is put together from the files (1343-1350). -/
def setup (src : Src) (build : α → ℕ → ℝ) (nc : ℕ) (fs : List (File α)) : Option (Dat p) :=
  let cov := (fs.map covs).flatten
  let y := (fs.map ys).flatten
  match src with
  | .memory => some ⟨fun i j => Par.crossXX (cov.map build) i j, fun i => Par.crossXy (cov.map build) y i, y,
      fun b => some (cov.map (Par.etaRow build p (ofFin b)))⟩
  | .files => do
    let parts ← fs.mapM fun f => Par.readXTX build nc (covs f) (ys f)
    let XX ← Par.reduce Par.addM (parts.map (·.1))
    let Xy ← Par.reduce Par.addV (parts.map (·.2.1))
    return ⟨fun i j => XX i j, fun i => Xy i, y,
      fun b => (fs.mapM fun f => Par.readEta build p nc (ofFin b) (covs f)).map List.flatten⟩
  | .kept => do
    let r ← Par.keepXTX build fs.length nc cov y
    return ⟨fun i j => r.1 i j, fun i => r.2 i, y, fun b => Par.keepEta build p fs.length nc (ofFin b) cov⟩

open Classical in
/-- `solve_coef`, `solve_coefXX`: in exact arithmetic the Cholesky factorisation succeeds for positive definite matrices; when
it fails the coefficients are zero and the code is 1 (435-446, 484-495). -/
noncomputable def solveXX (A : Matrix (Fin p) (Fin p) ℝ) (b : Fin p → ℝ) : (Fin p → ℝ) × ℕ :=
  if A.PosDef then (A⁻¹.mulVec b, 0) else (0, 1)

/-- `S_emb` for smoothing parameters `lam`. -/
noncomputable def sEmb (S : Fin m → Matrix (Fin p) (Fin p) ℝ) (lam : Fin m → ℝ) : Matrix (Fin p) (Fin p) ℝ := ∑ i, lam i • S i

/-- `update_coef` (1289-1291, 1334-1337): the code is not looked at. -/
noncomputable def updateCoef (D : Dat p) (S : Fin m → Matrix (Fin p) (Fin p) ℝ) (lam : Fin m → ℝ) : Fin p → ℝ :=
  (solveXX (D.XX + sEmb S lam) D.Xy).1

/-- Gaussian deviance (`exp_fam.py` 1088-1091): sum of squared differences. -/
def deviance (y : List ℝ) : Option (List ℝ) → Fl
  | none => .nan
  | some mu => .fin (List.zipWith (fun a b => (a - b) ^ 2) y mu).sum

/-- Quadratic form `b.T @ S @ b`. -/
noncomputable def quad (S : Matrix (Fin p) (Fin p) ℝ) (b : Fin p → ℝ) : ℝ := b ⬝ᵥ S.mulVec b

/-- Arguments of a fit; `lgdet`, `ldet`, `scale`, `nan`: what a pass computes for coefficients and smoothing parameters. -/
structure Args (m p : ℕ) where
  S : Fin m → Matrix (Fin p) (Fin p) ℝ
  extend : Bool
  exclude : Bool
  control : ℕ
  method : Lam.Method
  tol : ℝ
  lgdet : (Fin m → ℝ) → (Fin p → ℝ) → Fin m → ℝ
  ldet : (Fin m → ℝ) → (Fin p → ℝ) → Fin m → ℝ
  scale : (Fin m → ℝ) → (Fin p → ℝ) → ℝ
  nan : (Fin m → ℝ) → Bool

/-- Arguments of `correct_lambda_step` in iteration `o`; `penDev` only matters for other families. -/
def Args.cfg (A : Args m p) (o : ℕ) : Lam.Cfg := ⟨true, false, A.extend, A.exclude, A.control, A.method, o, 0⟩

/-- Results for given smoothing parameters (2203-2206, 2355-2392). -/
noncomputable def Args.pass (A : Args m p) (D : Dat p) (lam : Fin m → ℝ) : Lam.Pass m (Fin p → ℝ) :=
  let b := updateCoef D A.S lam
  ⟨b, A.lgdet lam b, A.ldet lam b, fun i => quad (A.S i) b, A.scale lam b, A.nan lam⟩

/-- The `while` loop of `correct_lambda_step` (2201-2525), as `Lam.loop`, with the smoothing parameters of the last pass. -/
noncomputable def control (A : Args m p) (D : Dat p) (o : ℕ) (coef : Fin p → ℝ) :
    ℕ → (Fin m → Lam.Term) → Option ((Fin m → Lam.Term) × (Fin p → ℝ) × (Fin m → ℝ))
  | 0, _ => none
  | fuel + 1, ts =>
    match Lam.pass (A.cfg o) coef (A.pass D fun i => (ts i).lam) ts with
    | .inl ts' => control A D o coef fuel ts'
    | .inr r => some (r.terms, r.nCoef, fun i => (ts i).lam)

/-- Variables of the loop; `used`: smoothing parameters behind `S_emb`. -/
structure St (m p : ℕ) where
  coef : Fin p → ℝ
  nCoef : Fin p → ℝ
  eta : Option (List ℝ)
  dev : Fl
  pen : Fl
  prevDev : Fl
  prevPen : Fl
  terms : Fin m → Lam.Term
  used : Fin m → ℝ

/-- The problem under the penalty `S_emb`; identity link. -/
noncomputable def prob (A : Args m p) (D : Dat p) (used : Fin m → ℝ) : Step.Prob (Fin p → ℝ) (Option (List ℝ)) (Option (List ℝ)) where
  etaF := D.eta
  muF := id
  devF := deviance D.y
  quad := quad (sEmb A.S used)
  pen := decide (0 < m)

/-- Deviances and step-length control (2883-2917, 4040-4068). -/
noncomputable def accept (A : Args m p) (D : Dat p) (s : St m p) : Option (St m p) :=
  let P := prob A D s.used
  let dev := deviance D.y s.eta
  match Step.coefLoop P s.coef (Step.penDev P s.coef s.prevDev) 34 0 ⟨s.nCoef, s.eta, s.eta, dev, Step.penDev P s.nCoef dev⟩ with
  | none => none
  | some r => some { s with coef := r.n, eta := r.eta, dev := r.dev, pen := r.pen }

/-- `abs(pen_dev - prev_pen_dev) < conv_tol * pen_dev` (2957-2966, 4071-4080); false when one is not finite. -/
def Conv (tol : ℝ) : Fl → Fl → Prop
  | .fin a, .fin b => |a - b| < tol * a
  | _, _ => False

/-- Next smoothing parameters and coefficients (2977-3085, 4091-4196); without penalties the coefficients only. -/
noncomputable def propose (A : Args m p) (D : Dat p) (fuel o : ℕ) (s : St m p) : Option (St m p) :=
  if m = 0 then
    let b := updateCoef D A.S s.used
    some { s with prevDev := s.dev, prevPen := s.pen, nCoef := b, eta := D.eta b }
  else
    match control A D o s.coef fuel (fun i => Lam.applyStep (s.terms i)) with
    | none => none
    | some r => some { s with prevDev := s.dev, prevPen := s.pen, nCoef := r.2.1, eta := D.eta r.2.1, terms := r.1, used := r.2.2 }

/-- What is returned (4200-4223): coefficients, linear predictor, penalty, the coefficients and smoothing parameters that scale parameter, effective
degrees of freedom and the factor of the Hessian were computed with, the reported smoothing parameters, and whether the code is 0. -/
structure Out (m p : ℕ) where
  coef : Fin p → ℝ
  eta : Option (List ℝ)
  penalty : ℝ
  wCoef : Fin p → ℝ
  used : Fin m → ℝ
  lam : Fin m → ℝ
  conv : Bool

/-- End of a fit (3124-3128, 4200-4204). -/
noncomputable def result (A : Args m p) (s : St m p) (conv : Bool) : Out m p :=
  ⟨s.coef, s.eta, if 0 < m then quad (sEmb A.S s.used) s.coef else 0, s.nCoef, s.used, fun i => (s.terms i).lam, conv⟩

open Classical in
/-- The outer loop (2879-3122, 4036-4198): `left` iterations remain; `fuel` bounds the passes of the step control. -/
noncomputable def outer (A : Args m p) (D : Dat p) (fuel : ℕ) : ℕ → ℕ → St m p → Option (Out m p)
  | 0, _, s => some (result A s false)
  | left + 1, o, s =>
    if o = 0 then
      match propose A D fuel o s with
      | none => none
      | some s' => outer A D fuel left (o + 1) s'
    else
      match accept A D s with
      | none => none
      | some s1 =>
        if Conv A.tol s1.pen s1.prevPen then some (result A s1 true)
        else match propose A D fuel o s1 with
          | none => none
          | some s' => outer A D fuel left (o + 1) s'

/-- `init_step_gam` (1638-1735) and `initialize_extension`. -/
noncomputable def start (A : Args m p) (D : Dat p) (lam : Fin m → ℝ) (frozen : Fin m → Bool) : St m p :=
  let b := updateCoef D A.S lam
  let dev := deviance D.y (D.eta b)
  { coef := b
    nCoef := b
    eta := D.eta b
    dev := dev
    pen := Step.penDev (prob A D lam) b dev
    prevDev := .nan
    prevPen := .nan
    terms := fun i => Lam.initStep (A.pass D lam) i ⟨lam i, 0, lam i, 0, false, frozen i⟩
    used := lam }

/-- A whole fit from starting values `lam`. -/
noncomputable def fit (A : Args m p) (src : Src) (build : α → ℕ → ℝ) (nc : ℕ) (fs : List (File α)) (fuel maxOuter : ℕ)
    (lam : Fin m → ℝ) (frozen : Fin m → Bool) : Option (Out m p) :=
  match setup src build nc fs with
  | none => none
  | some D => outer A D fuel maxOuter 0 (start A D lam frozen)

end Verif.Gauss
