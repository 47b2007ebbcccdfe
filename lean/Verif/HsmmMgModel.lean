import Verif.HsmmFamModel
import Verif.MGaussModel
import Verif.DensModel

/-!
Model of the parts of `HSMMFamily`, `src/mssm/src/python/hsmm.py`, for states whose emissions are vectors with the family
`MultiGauss` (property C120): probability tables (447-514, 3220-3322), columns of the gradient (3347-3420), layout of the
gradient (4090-4149), simulation (918-964).

A state either has a family `MultiGauss` for all `M` signals (its number of means `n_par` is `M`) or independent signals as
in `HsmmFamModel.lean`; which one is decided state by state (454, 3227, 924). The formula of mean `m` of state `j` is named
`.em j m 0`: as in the code its shared part is that of parameter 0 and signal `m` (470-474, 3267-3276). The
parameters of the precision matrices are the last block of coefficients (448), a vector read by position.
Simplifications as in `HsmmFamModel.lean`.
-/

namespace Verif.HMg

open Hsmm HFam
open scoped Matrix

/-- One series. `base.obs j m` is read only for states without `MultiGauss`. `y t m` is the response (461, 3244), `fi j m` the
inverse of the link of mean `m` in state `j`. -/
structure Mg where
  base : HFam.Model
  mg : ℕ → Bool
  y : ℕ → ℕ → ℝ
  fi : ℕ → ℕ → ℝ → ℝ

/-- The formulas: a state with `MultiGauss` has one formula per signal (466-477, 3257-3310). -/
def Mg.fm (h : Mg) : HFam.Model :=
  { h.base with obs := fun j m => if h.mg j then ⟨1, fun _ _ => 0, fun _ _ _ => 0⟩ else h.base.obs j m }

/-- `extra_coef` (exp_fam.py 4640). -/
def Mg.extra (h : Mg) : ℕ := (MGauss.thetIdx h.base.M).length

/-- `theta_idx` on arrival at state `j` (449, 514; 3420). -/
def Mg.thOff (h : Mg) : ℕ → ℕ
  | 0 => 0
  | j + 1 => h.thOff j + if h.mg j then h.extra else 0

/-- `thetas_j` (459, 3240). -/
def thSl (h : Mg) (θ : ℕ → ℝ) (j : ℕ) : ℕ → ℝ := fun i => θ (h.thOff j + i)

/-- Row `t` of `Y - musbjm` (466-485, 3257-3319), a matrix with a single row. -/
noncomputable def errM (h : Mg) (β : Coef) (j t : ℕ) : Matrix (Fin 1) (Fin h.base.M) ℝ :=
  Matrix.of fun _ m => h.y t m - h.fi j m (emEta h.fm β j m t 0)

/-- Row `t` of `yR` (485, 3319). -/
noncomputable def yR (h : Mg) (β : Coef) (θ : ℕ → ℝ) (j t : ℕ) : Matrix (Fin 1) (Fin h.base.M) ℝ :=
  errM h β j t * (MGauss.getR h.base.M (thSl h θ j)).transpose

/-- `bs[t, j]` before `np.exp` (488, 3322). -/
noncomputable def mgLp (h : Mg) (β : Coef) (θ : ℕ → ℝ) (j t : ℕ) : ℝ :=
  -(1 / 2) * (∑ m, yR h β θ j t 0 m * yR h β θ j t 0 m) + MGauss.logdet h.base.M (thSl h θ j)

/-- `bs[t, j]` (488, 657-659; 3322, 3522). -/
noncomputable def bsMg (h : Mg) (β : Coef) (θ : ℕ → ℝ) (t j : ℕ) : ℝ :=
  if h.mg j then Real.exp (mgLp h β θ j t) else bsAt h.base β t j

/-- `jbs[t, j, m]` with `log=True` (494-502): standard normal log density of the decorrelated residual. -/
noncomputable def jbsMg (h : Mg) (β : Coef) (θ : ℕ → ℝ) (j t : ℕ) (m : Fin h.base.M) : ℝ :=
  -(yR h β θ j t 0 m) ^ 2 / 2 - Real.log (2 * Real.pi) / 2

/-- The tables handed to the C++ code. -/
noncomputable def tables (h : Mg) (β : Coef) (θ : ℕ → ℝ) : Tables ℝ := { HFam.tables h.fm β with bs2 := bsMg h β θ }

/-- Log-likelihood of the series (2883-2965). -/
noncomputable def seriesLlk (h : Mg) (β : Coef) (θ : ℕ → ℝ) : ℝ := llk (tables h β θ)

/-! ### Gradient -/

/-- `RRy[m, t]` (3353). -/
noncomputable def RRy (h : Mg) (β : Coef) (θ : ℕ → ℝ) (j m t : ℕ) : ℝ :=
  if hm : m < h.base.M then ((MGauss.getR h.base.M (thSl h θ j)).transpose * (yR h β θ j t).transpose) ⟨m, hm⟩ 0 else 0

/-- A column of `b_grad` for one formula (3331-3358): with `MultiGauss` the derivative in the mean times the column of the
model matrix; otherwise as for independent signals. -/
noncomputable def mgCol (h : Mg) (β : Coef) (θ : ℕ → ℝ) (j m par : ℕ) (k : Key) (c : ℕ) : GradTables :=
  if h.mg j then { emCol h.base β j m par k c with b_grad := fun t => h.base.X k t c * RRy h β θ j m t }
  else emCol h.base β j m par k c

/-- `dldtheta` at row `t` for cell `(r, c)` (3386-3402). -/
noncomputable def dldtheta (h : Mg) (β : Coef) (θ : ℕ → ℝ) (j r c t : ℕ) : ℝ :=
  if hr : r < h.base.M ∧ c < h.base.M then
    -(∑ m, yR h β θ j t 0 m * (errM h β j t * (MGauss.Rp (thSl h θ j) ⟨r, hr.1⟩ ⟨c, hr.2⟩).transpose) 0 m) + if r = c then 1 else 0
  else 0

/-- The column of `b_grad` of a parameter of the precision matrix (3406-3411). -/
noncomputable def thCol (h : Mg) (β : Coef) (θ : ℕ → ℝ) (j r c : ℕ) : GradTables where
  kind := .emission
  jidx := j
  b_grad := dldtheta h β θ j r c
  d_grad2 := fun _ => 0
  d_grad3 := fun _ _ => 0
  T_grad2 := fun _ => 0
  T_grad3 := fun _ _ => 0
  pi_grad := fun _ => 0

/-- Groups of columns in `b_grad`: those of a formula (with the shared formula appended to it), or the one of a cell of the
triangular factor. -/
inductive Blk
  | em (j m par : ℕ)
  | th (j r c : ℕ)

/-- The groups of state `j` (3225-3257, 3386-3411). -/
def blksOf (h : Mg) (j : ℕ) : List Blk :=
  if h.mg j then
    (List.range h.base.M).map (fun m => Blk.em j m 0) ++ (MGauss.thetIdx h.base.M).map fun rc => Blk.th j rc.1 rc.2
  else (List.range h.base.M).flatMap fun m => (List.range (h.base.obs j m).n_par).map fun par => Blk.em j m par

/-- The loop over states (3222). -/
def blks (h : Mg) : List Blk := (List.range h.base.n_S).flatMap (blksOf h)

/-- Columns of one group: for a formula its own columns, then those of the shared formula (3282-3284). -/
noncomputable def colsB (h : Mg) (β : Coef) (θ : ℕ → ℝ) : Blk → List GradTables
  | .em j m par =>
    (List.range (h.base.p (.em j m par))).map (mgCol h β θ j m par (.em j m par)) ++
      if par < h.base.n_shared then (List.range (h.base.p (shKey h.base par m))).map (mgCol h β θ j m par (shKey h.base par m))
      else []
  | .th j r c => [thCol h β θ j r c]

/-- `shared_coef_idx` with the counter `total_coef` (3286-3309, 3417; the counter is increased by `extra_coef` after all
cells of a state, here cell by cell). -/
def dupScan (h : Mg) : List Blk → ℕ → List (Key × List ℕ)
  | [], _ => []
  | .em j m par :: r, tot =>
    let own := h.base.p (.em j m par)
    if par < h.base.n_shared then
      let s := h.base.p (shKey h.base par m)
      (shKey h.base par m, List.range' (tot + own) s) :: dupScan h r (tot + s + own)
    else dupScan h r (tot + own)
  | .th _ _ _ :: r, tot => dupScan h r (tot + 1)

/-- `theta_grad_idx`: the number of columns so far (3404). -/
noncomputable def thScan (h : Mg) (β : Coef) (θ : ℕ → ℝ) : List Blk → ℕ → List ℕ
  | [], _ => []
  | .em j m par :: r, len => thScan h β θ r (len + (colsB h β θ (.em j m par)).length)
  | .th j a c :: r, len => len :: thScan h β θ r (len + (colsB h β θ (.th j a c)).length)

/-- The entry of `grad` for a column (3957-3978, 4059-4088). -/
noncomputable def entry (h : Mg) (β : Coef) (θ : ℕ → ℝ) (g : GradTables) : ℝ :=
  if h.base.fixed.isSome then llkFTPgrad (tables h β θ) (toFtp g) else llkgrad (tables h β θ) g

/-- `grad` before it is rearranged. -/
noncomputable def rawGrad (h : Mg) (β : Coef) (θ : ℕ → ℝ) : List ℝ :=
  ((blks h).flatMap (colsB h β θ) ++ restCols h.fm β).map (entry h β θ)

/-- The gradient of one series (4090-4149). -/
noncomputable def seriesGrad (h : Mg) (β : Coef) (θ : ℕ → ℝ) : List ℝ :=
  let grad := rawGrad h β θ
  let th := thScan h β θ (blks h) 0
  if 0 < h.base.n_shared then
    let dup := dupScan h (blks h) 0
    let flat := dup.flatMap (·.2) ++ th
    ((sharedKeys h.fm).flatMap fun k => (List.range (h.base.p k)).map fun c =>
        ((dup.filter fun e => e.1 = k).map fun e => grad.getD (e.2.getD c 0) 0).sum) ++
      (((List.range grad.length).filter fun i => i ∉ flat).map fun i => grad.getD i 0) ++
      if 0 < th.length then th.map fun i => grad.getD i 0 else []
  else if 0 < th.length then
    (((List.range grad.length).filter fun i => i ∉ th).map fun i => grad.getD i 0) ++ th.map fun i => grad.getD i 0
  else grad

/-- `split_coef[-1]` (448, 401): what follows the blocks of the formulas. -/
def thetas (h : Mg) (coef : ℕ → ℝ) : ℕ → ℝ := fun i => coef (nCoef h.fm + i)

/-! ### Simulation -/

/-- The seeds of the draws, a list per state with one seed per row of the series, when all states have the family
`MultiGauss` (921, 953-961): `MultiGauss.rvs` adds one to its own copy of the seed after every row (`Dens.mgSeeds`), the loop
over states adds one to the seed it holds. -/
def simSeeds (n_T : ℕ) : ℕ → Option ℤ → List (List (Option ℤ))
  | 0, _ => []
  | n + 1, seed => Dens.mgSeeds seed n_T :: simSeeds n_T n (seed.map (· + 1))

/-- The draw of row `t` in state `j`, `noise s` being the vector of standard normal numbers that the generator with seed `s`
starts with, `A` a root of the covariance matrix as used by scipy. -/
noncomputable def simEmission {d : ℕ} (noise : ℤ → Fin d → ℝ) (seed : ℤ) (mean : ℕ → ℕ → Fin d → ℝ) (A : ℕ → Matrix (Fin d) (Fin d) ℝ)
    (n_T n_S j t : ℕ) : Option (Fin d → ℝ) :=
  ((simSeeds n_T n_S (some seed))[j]?.bind (·[t]?)).bind fun s => s.map fun s => mean j t + A j *ᵥ noise s

end Verif.HMg
