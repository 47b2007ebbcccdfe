import Verif.Ar1Model
import Mathlib.LinearAlgebra.Matrix.NonsingularInverse

/-!
# State of fitted models (properties C89, C90)

Model of `GAMM.__init__`, `get_mmat`, `get_llk`, `get_resid`, `fit` (src/mssm/models.py 235-258, 2609-2619, 2642-2679, 2681-2744,
2809-2878, 3077-3377) and of the way `compute_bias_corrected_edf` and `approx_smooth_p_values` keep degrees of freedom on the model
(src/mssm/src/python/utils.py 1045-1093, 1180-1189).

Simplified: data in memory (`file_paths` empty), no `discretize`, so that the checks in 3101-3112 do not apply; rows with missing values
are already removed; the response and the model matrix of the formula are inputs. `solve_gamm_sparse` is a parameter: it returns the
penalties as it leaves them (it changes `lam` in place) and, unless it raised an exception, its results. The computation of the
bias corrected degrees of freedom is a parameter.
-/

namespace Verif.Fit

open Matrix

/-- What the formula determines: series starts, response, model matrix. -/
structure Form where
  start : List Bool
  p : ℕ
  y : Fin start.length → ℝ
  X : Matrix (Fin start.length) (Fin p) ℝ

/-- Penalty: matrix and `lam`. -/
structure Pen (p : ℕ) where
  S : Matrix (Fin p) (Fin p) ℝ
  lam : ℝ

/-- The family: whether it is `Gaussian` with identity link, `twopar`, inverse link, log-likelihood, deviance contributions. -/
structure Family (n : ℕ) where
  gaussId : Bool
  twopar : Bool
  fi : ℝ → ℝ
  llk : (Fin n → ℝ) → (Fin n → ℝ) → ℝ → ℝ
  llk1 : (Fin n → ℝ) → (Fin n → ℝ) → ℝ
  dev : ℝ → ℝ → ℝ

variable (F : Form)

abbrev Obs := Fin F.start.length → ℝ
abbrev MMat := Matrix (Fin F.start.length) (Fin F.p) ℝ

/-- Arguments of `fit` that matter here. -/
structure Args where
  restart : Bool
  maxInner : Option ℕ
  offset : Option (Obs F)
  rho : Option ℝ
  transform : Option (MMat F → MMat F)

/-- What the solver gets (3246-3269). -/
structure In where
  y : Obs F
  X : MMat F
  pens : List (Pen F.p)
  maxInner : ℕ
  offset : Obs F
  L : Option (Matrix (Fin F.start.length) (Fin F.start.length) ℝ)

/-- What the solver returns (gamm_solvers.py 3219-3231). `res` and `resAr` are `wres`: with `Lrhoi` and a generalised model the solver
returns `[wres, wres2]` (3168-3169), the residuals with and without correction; otherwise it returns `resAr` only. -/
structure Out where
  coef : Fin F.p → ℝ
  eta : Obs F
  resAr : Obs F
  res : Obs F
  wr : Obs F
  wn : Obs F
  scale : ℝ
  edf : ℝ
  termEdf : List ℝ
  penalty : ℝ
  dropped : List (Fin F.p)

/-- The model object. -/
structure State where
  coef : Option (Fin F.p → ℝ)
  preds : Option (Obs F)
  res : Option (Obs F)
  resAr : Option (Obs F)
  rho : Option ℝ
  transform : Option (MMat F → MMat F)
  hessian : Option (Matrix (Fin F.p) (Fin F.p) ℝ)
  hessianObs : Option (Matrix (Fin F.p) (Fin F.p) ℝ)
  scale : ℝ
  penalty : ℝ
  edf : Option ℝ
  termEdf : Option (List ℝ)
  edf1 : Option (List ℝ)
  pens : Option (List (Pen F.p))

/-- A new model (235-258, 1705-1708, 2609-2619). -/
def new : State F := ⟨none, none, none, none, none, none, none, none, 1, 0, none, none, none, none⟩

inductive Err where
  | type
  | value
  | solver
  deriving DecidableEq

variable {F}

/-- `max_inner` (3089-3093, 3114-3130). -/
def maxInner (a : Args F) (npen : ℕ) : ℕ :=
  let m := a.maxInner.getD (if a.rho.isSome || npen == 0 then 1 else 500)
  let m := if 1 < m ∧ a.rho.isSome then 1 else m
  if 1 < m ∧ npen = 0 then 1 else m

/-- Penalties after 3078-3085. -/
def pens (build : List (Pen F.p)) (s : State F) (a : Args F) : Option (List (Pen F.p)) :=
  if a.restart then s.pens else some build

/-- Arguments of the solver (3132, 3163-3175, 3235-3243). -/
noncomputable def input (fam : Family F.start.length) (a : Args F) (ps : List (Pen F.p)) : In F where
  y := if fam.gaussId then F.y - a.offset.getD 0 else F.y
  X := match a.transform with
    | some t => t F.X
    | none => F.X
  pens := ps
  maxInner := maxInner a ps.length
  offset := if fam.gaussId then 0 else a.offset.getD 0
  L := a.rho.map fun r => (Ar1.W r F.start)ᵀ

/-- State when the solver is called: `rho` and `transform_X` are assigned if given (3236-3243). -/
def begin (s : State F) (a : Args F) (ps : List (Pen F.p)) : State F :=
  { s with
    pens := some ps
    rho := match a.rho with | some r => some r | none => s.rho
    transform := match a.transform with | some t => some t | none => s.transform }

/-- Columns of dropped coefficients are set to zero (3276-3279); an empty list stands for `None`. -/
def zeroed (d : List (Fin F.p)) (X : MMat F) : MMat F := Matrix.of fun i j => if j ∈ d then 0 else X i j

/-- Assignments after the solver returned (3272-3322, 3368-3377). -/
noncomputable def finish (fam : Family F.start.length) (a : Args F) (i : In F) (o : Out F) (s : State F) : State F :=
  let X := zeroed o.dropped i.X
  let gram (M : Matrix (Fin F.start.length) (Fin F.start.length) ℝ) := -((1 / o.scale) • (Xᵀ * M * X))
  let W := diagonal o.wr
  { s with
    coef := some o.coef
    preds := some (
      if fam.gaussId then (if a.rho.isSome then X *ᵥ o.coef else o.eta) + a.offset.getD 0 else o.eta)
    res := some (
      if a.rho.isSome then (if fam.gaussId then i.y - X *ᵥ o.coef else o.res) else o.resAr)
    resAr := if a.rho.isSome then some o.resAr else s.resAr
    hessian := some (
      match i.L with
      | some L => if fam.gaussId then gram (L * Lᵀ) else gram (W * L * Lᵀ * W)
      | none => if fam.gaussId then gram 1 else gram (W * W))
    hessianObs := if fam.gaussId || a.rho.isSome then s.hessianObs else some (gram (diagonal o.wn))
    scale := o.scale
    penalty := o.penalty
    edf := some o.edf
    termEdf := some o.termEdf }

/-- `fit`: the model afterwards and the exception, if any. `len(penalties)` of `None` (3090) is evaluated only if neither `max_inner` nor
`rho` is given. -/
noncomputable def fit (fam : Family F.start.length) (build : List (Pen F.p)) (solve : In F → List (Pen F.p) × Option (Out F))
    (s : State F) (a : Args F) : State F × Option Err :=
  match pens build s a with
  | none => if a.maxInner.isNone && a.rho.isNone then (s, some .type) else (s, some .value)
  | some ps =>
    let i := input fam a ps
    let s1 := begin s a (solve i).1
    match (solve i).2 with
    | none => (s1, some .solver)
    | some o => (finish fam a i o s1, none)

/-- `get_mmat` (2674-2679). -/
def getMmat (s : State F) : MMat F :=
  match s.transform with
  | some t => t F.X
  | none => F.X

/-- `get_llk` (2707-2744), `none` before fitting; without `res_ar` the log-likelihood of `None` is a type error. -/
noncomputable def getLlk (fam : Family F.start.length) (s : State F) (penalized : Bool) (ext : Option ℝ) : Except Err (Option ℝ) :=
  let pen := if penalized then 1 / 2 * s.penalty else 0
  match s.preds with
  | none => .ok none
  | some eta =>
    let mu : Obs F := if fam.gaussId then eta else fun i => fam.fi (eta i)
    let pen := match s.rho with
      | some r => pen - Ar1.llc r F.start
      | none => pen
    if fam.twopar then
      let scale := ext.getD s.scale
      if s.rho.isSome && fam.gaussId then
        match s.resAr with
        | some v => .ok (some (fam.llk v 0 scale - pen))
        | none => .error .type
      else .ok (some (fam.llk F.y mu scale - pen))
    else .ok (some (fam.llk1 F.y mu - pen))

inductive ResType where
  | pearson
  | deviance
  | ar1

/-- `get_resid` (2844-2878). -/
noncomputable def getResid (fam : Family F.start.length) (s : State F) : ResType → Except Err (Option (Obs F))
  | t =>
    match s.res, s.preds with
    | some r, some eta =>
      match t with
      | .pearson => .ok (some r)
      | .ar1 => if s.rho.isNone then .error .value else .ok s.resAr
      | .deviance =>
        let mu : Obs F := if fam.gaussId then eta else fun i => fam.fi (eta i)
        .ok (some fun i => (SignType.sign (F.y i - mu i) : ℝ) * √(fam.dev (F.y i) (mu i)))
    | _, _ => .error .value

/-- `compute_bias_corrected_edf` (1045, 1092-1093) with `overwrite=False`; `comp` is the computation in 1046-1091. -/
def biasEdf (comp : State F → List ℝ) (s : State F) : State F :=
  match s.edf1 with
  | some _ => s
  | none => { s with edf1 := some (comp s) }

/-- Degrees of freedom used by `approx_smooth_p_values` (1180-1189): the model afterwards and `term_edf`. -/
def testEdf (comp : State F → List ℝ) (edf1 : Bool) (s : State F) : State F × Option (List ℝ) :=
  if edf1 then (biasEdf comp s, (biasEdf comp s).edf1) else (s, s.termEdf)

/-- Calls a user makes that change the model. -/
inductive Op (F : Form) where
  | fit (a : Args F)
  | test (edf1 : Bool)

noncomputable def op (fam : Family F.start.length) (build : List (Pen F.p)) (solve : In F → List (Pen F.p) × Option (Out F))
    (comp : State F → List ℝ) (s : State F) : Op F → State F
  | .fit a => (fit fam build solve s a).1
  | .test b => (testEdf comp b s).1

/-- A sequence of calls. -/
noncomputable def run (fam : Family F.start.length) (build : List (Pen F.p)) (solve : In F → List (Pen F.p) × Option (Out F))
    (comp : State F → List ℝ) (ops : List (Op F)) : State F :=
  ops.foldl (op fam build solve comp) (new F)

end Verif.Fit
