import Mathlib.Data.Real.Basic
import Mathlib.Data.List.Basic

/-!
# Rows with missing values (property C107)

Model of the masks of `Formula.encode_data` (src/mssm/src/python/formula.py 908-943), of `GSMM.get_ys` (src/mssm/models.py 316-391), `GSMM.get_mmat` (393-503),
`GAMMLSS.get_ys`/`get_mmat` (1712-1751), of the rows used by `GAMM.fit` (3148-3175), `GAMMLSS.fit` (2006-2015), `GSMM.fit` (985-999), and of the rows that `GSMM.predict` builds
(1423-1463; prediction=True builds no mask).

A cell of the data is `none` if it is missing (`nan`). Factors hold their codes; a level that is not known is encoded as `nan` (1039-1042).  Rows of a model matrix depend on the row of the data only: terms without
convolution (impulse responses are in C106).
-/

namespace Verif.Rows

/-- A cell. -/
abbrev Cell := Option ℝ

/-- A row of the data: cells by number of the variable. -/
abbrev Row := ℕ → Cell

/-- Terms: intercept, linear effect of a numeric variable, dummy-coded factor with a number of levels, smooth of a variable with the columns of its basis after constraints, the same for every level of a factor,
random intercept. -/
inductive Term where
  | int
  | lin (v : ℕ)
  | fac (g levels : ℕ)
  | smooth (v nk : ℕ) (B : ℝ → ℕ → ℝ)
  | smoothBy (v nk : ℕ) (B : ℝ → ℕ → ℝ) (g levels : ℕ)
  | ri (g levels : ℕ)

/-- Variables of a term. -/
def Term.vars : Term → List ℕ
  | .int => []
  | .lin v => [v]
  | .fac g _ => [g]
  | .smooth v _ _ => [v]
  | .smoothBy v _ _ g _ => [v, g]
  | .ri g _ => [g]

/-- A formula: number of the response, terms. -/
structure Form where
  y : ℕ
  terms : List Term

/-- `NOT_NA_flat` (925-943): response and all variables are available. -/
def mask (f : Form) (row : Row) : Bool := (f.y :: f.terms.flatMap Term.vars).all fun v => (row v).isSome

/-- `NOT_NA_flat` when the covariates of file data are kept in memory (915-923, `data is None`): only the response is looked at. -/
def maskFiles (f : Form) (row : Row) : Bool := (row f.y).isSome

/-- Numbers of the rows that are used. -/
def used (mask : Row → Bool) (drop : Bool) (dat : List Row) : List ℕ :=
  (List.range dat.length).filter fun r => !drop || mask (dat.getD r fun _ => none)

/-- `y_flat[NOT_NA_flat]` or `y_flat` (models.py 374-377). -/
def ysOf (f : Form) (drop : Bool) (dat : List Row) : List Cell := (used (mask f) drop dat).map fun r => dat.getD r (fun _ => none) f.y

/-- An entry of a smooth that is stored: `abs(x) > tol` with `tol = 0` is false for `nan`, and what is not stored is zero (terms.py 1357-1361). -/
def stored : Cell → Cell
  | some x => some x
  | none => some 0

/-- Does the code equal the level (`by_cov == level`; false for `nan`)? -/
noncomputable def isLevel (c : Cell) (l : ℕ) : Bool := match c with
  | some x => decide (x = (l : ℝ))
  | none => false

/-- Row of the matrix of a term (terms.py 119-146, 1203-1364, 2469-2488, 3079-3106). -/
noncomputable def Term.cols (row : Row) : Term → List Cell
  | .int => [some 1]
  | .lin v => [row v]
  | .fac g levels => ((List.range levels).drop 1).map fun l => if isLevel (row g) l then some 1 else some 0
  | .smooth v nk B => (List.range nk).map fun j => stored ((row v).map fun x => B x j)
  | .smoothBy v nk B g levels =>
    (List.range levels).flatMap fun l => (List.range nk).map fun j => if isLevel (row g) l then stored ((row v).map fun x => B x j) else some 0
  | .ri g levels => (List.range levels).map fun l => if isLevel (row g) l then some 1 else some 0

/-- Number of columns of a term. -/
def Term.width : Term → ℕ
  | .int => 1
  | .lin _ => 1
  | .fac _ levels => levels - 1
  | .smooth _ nk _ => nk
  | .smoothBy _ nk _ _ levels => levels * nk
  | .ri _ levels => levels

/-- Row of the model matrix; terms that are not used have zeros (`use_only`). -/
noncomputable def rowOf (f : Form) (use : ℕ → Bool) (row : Row) : List Cell :=
  (f.terms.mapIdx fun i t => if use i then t.cols row else List.replicate t.width (some 0)).flatten

/-- `get_mmat` for one formula (442-497). -/
noncomputable def mmatOf (f : Form) (drop : Bool) (dat : List Row) : List (List Cell) :=
  (used (mask f) drop dat).map fun r => rowOf f (fun _ => true) (dat.getD r fun _ => none)

/-- `GSMM.get_ys(par=None)` (350-385) without functions of the response: `none` for a response that is that of the first formula. -/
def getYs (drop : Bool) (dat : List Row) (fs : List Form) : List (Option (List Cell)) :=
  fs.mapIdx fun i f => if 0 < i ∧ some f.y = fs.head?.map Form.y then none else some (ysOf f drop dat)

/-- What `GAMMLSS.fit` (2006-2015) passes on: the response of the first formula and the matrices of all formulas. -/
noncomputable def fitData (dat : List Row) (fs : List Form) : Option (List Cell × List (List (List Cell))) :=
  match fs with
  | [] => none
  | f :: _ => some (ysOf f true dat, fs.map fun g => mmatOf g true dat)

/-- Sum with `nan`. -/
noncomputable def addN : Cell → Cell → Cell
  | some x, some y => some (x + y)
  | _, _ => none

/-- Product of a row with coefficients (1463). -/
noncomputable def dot : List Cell → List ℝ → Cell
  | c :: cs, b :: bs => addN (c.map (· * b)) (dot cs bs)
  | _, _ => some 0

/-- `predict` for one row of new data (1423-1463). -/
noncomputable def predict (f : Form) (use : ℕ → Bool) (coef : List ℝ) (row : Row) : Cell := dot (rowOf f use row) coef

/-- Offset of the rows that are fitted (3165-3167), an array with one entry per row of the data. -/
def offsetOf (f : Form) (dat : List Row) (off : List ℝ) : List ℝ := (used (mask f) true dat).map fun r => off.getD r 0

end Verif.Rows
