import Verif.FamModel
import Mathlib.Data.List.Basic
import Mathlib.Algebra.Order.Floor.Ring

/-!
# Starting values of fits (property C116)

Models of `init_mu` (exp_fam.py), `init_coef` of the families (exp_fam.py, utils.py), of the start of `GSMM.fit` and `GAMMLSS.fit`
(models.py) and of the columns chosen for structured quasi-Newton fits. The fits of mean models inside `init_coef` are a
parameter: only the length of what they return is used.
-/

namespace Verif.Init

open Verif Fl Fam

/-! ### Means -/

/-- `init_mu`: `Family` 508 (Gaussian, Gamma, InvGauss), `Binomial` 831-833, `Poisson` 1586-1590. -/
noncomputable def initMu : FamKind → Fl → Fl
  | .binomial _, y => (y + fin (1 / 2)) / fin 2
  | .poisson, y => match y with
    | fin a => (if 0 < a then fin a else fin 0) + fin (1 / 10)
    | pinf => pinf + fin (1 / 10)
    | _ => fin 0 + fin (1 / 10)
  | .gaussian, y => y
  | .gamma, y => y
  | .invGauss, y => y

/-- Pseudo-data and weight of one observation in the first step, with an offset (`solve_gamm_sparse`, gamm_solvers.py 2800-2807, and
`init_step_gam` 1655 by way of `update_PIRLS` 590; a normal response with identity link is used as it is). -/
noncomputable def first (fam : FamKind) (lk : LinkKind) (y o : Fl) : Fl × Fl :=
  fisherZW fam lk y (initMu fam y) (lk.f (initMu fam y) - o)

/-! ### Coefficients -/

/-- The families with an `init_coef` of their own. `mean` stands for `GAUMLSS` (2959-2971) and `GAMMALS` (3539-3550), `small` for `PropHaz`
(4576-4579); `wrapped` for `GAMLSSGSMMFamily` (utils.py 216-233) around an exponential family, with `theta` for an extended family,
`scale` for one with unknown scale; `none` for all others (2729, 3938). -/
inductive Kind where
  | none
  | mean
  | small
  | wrapped
  | wrappedScale
  | wrappedTheta (theta : List ℝ)

/-- `family.extra_coef` (utils.py 199-203). -/
def extra : Kind → Option ℕ
  | .wrappedScale => some 1
  | .wrappedTheta t => some t.length
  | _ => Option.none

/-- `init_coef`: `ns` are the numbers of coefficients of the formulas, `fit` the coefficients of the fit of the first formula. `none`: no
starting values from the family. -/
noncomputable def initCoef (k : Kind) (ns : List ℕ) (fit : List ℝ) : Option (List ℝ) :=
  match k with
  | .none => Option.none
  | .mean => some (fit ++ List.replicate (ns.getD 1 0) 1)
  | .small => some (List.replicate (ns.getD 0 0) (1 / 10000))
  | .wrapped => some fit
  | .wrappedScale => some (fit ++ [0])
  | .wrappedTheta t => some (fit ++ t)

/-- `form_n_coef` (models.py 1047-1055): numbers of coefficients of the formulas and the extra coefficients. -/
def sizes (ns : List ℕ) (ex : Option ℕ) : List ℕ := ns ++ ex.toList

/-- Coefficients at the start (models.py 1058-1067): those of the caller, else of the family, else `rvs n` random numbers. -/
def startCoef (user fam : Option (List ℝ)) (rvs : ℕ → List ℝ) (ns : List ℕ) (ex : Option ℕ) : List ℝ :=
  match user with
  | some c => c
  | Option.none => match fam with
    | some c => c
    | Option.none => rvs (sizes ns ex).sum

/-- The loop at models.py 1072-1073 (2069-2070). -/
def cumul : ℕ → List ℕ → List ℕ
  | _, [] => []
  | a, n :: ns => (a + n) :: cumul (a + n) ns

/-- `coef_split_idx` (models.py 1069-1073): summed up only for more than one formula. -/
def splitIdx (ns : List ℕ) (ex : Option ℕ) : List ℕ :=
  if 1 < ns.length then cumul 0 (sizes ns ex).dropLast else (sizes ns ex).dropLast

/-- `np.split(c, idx)` along the first axis: slices between consecutive indices, from `a` on. -/
def npSplit (c : List ℝ) : ℕ → List ℕ → List (List ℝ)
  | a, [] => [c.drop a]
  | a, i :: is => (c.take i).drop a :: npSplit c i is

/-! ### Smoothing parameters -/

/-- Which smoothing parameters a fit starts with (models.py 1026-1036, 2037-2046): `user`, `fam` are the lists given by the caller and by the
family, `q` whether the method is "qEFS". `none`: `IndexError`. -/
noncomputable def startLam (user fam : Option (List ℝ)) (q : Bool) (m : ℕ) : Option (List ℝ) :=
  match user.or fam with
  | Option.none => some (List.replicate m (if q then 1 else 10))
  | some l => if m ≤ l.length then some (l.take m) else Option.none

/-! ### Columns of the Hessian for structured quasi-Newton fits -/

/-- A term: whether it is a factor smooth (`fs`), whether it is random (not listed in 1093), and its columns in the formula. -/
structure Term where
  fs : Bool
  random : Bool
  cols : List ℕ

/-- The loop at models.py 1086-1100, from `start_idx` on; a formula is its terms, in the order of 1093, and its number of coefficients. -/
def fixedCols : ℕ → List (List Term × ℕ) → List ℕ
  | _, [] => []
  | s, (ts, n) :: fs => ((ts.filter fun t => !t.random && !t.fs).flatMap fun t => t.cols.map (· + s)) ++ fixedCols (s + n) fs

/-- Total number of coefficients of the formulas. -/
def total (fs : List (List Term × ℕ)) : ℕ := (fs.map fun f => f.2).sum

/-- `fcols` before the budget (models.py 1086-1104). -/
def allCols (fs : List (List Term × ℕ)) (ex : Option ℕ) : List ℕ :=
  fixedCols 0 fs ++ (match ex with
    | Option.none => []
    | some e => (List.range e).map (· + total fs))

/-- A budget: a number of columns, or a share of the columns (a float up to 1). -/
inductive Budget where
  | number (k : ℕ)
  | share (q : ℝ)

/-- `cols_budget` (models.py 1107-1109). -/
noncomputable def budgetOf (b : Budget) (len : ℕ) : ℕ :=
  match b with
  | .number k => k
  | .share q => max 1 ⌊q * len⌋₊

/-- `fcols` (models.py 1106-1122) before `np.unique`; `choice l k` is the subset drawn by `np_gen.choice(l, size=k, replace=False)`. -/
noncomputable def chosen (choice : List ℕ → ℕ → List ℕ) (cols : List ℕ) (n : ℕ) (b : Budget) : List ℕ :=
  if cols.length = n ∧ cols.length ≤ budgetOf b cols.length then choice cols (n - 1)
  else if budgetOf b cols.length < cols.length then choice cols (budgetOf b cols.length)
  else cols

/-- `np.unique`. -/
def unique (l : List ℕ) : List ℕ := (l.dedup).mergeSort

end Verif.Init
