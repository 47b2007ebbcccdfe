import Mathlib.Analysis.CStarAlgebra.Matrix
import Mathlib.Data.EReal.Basic

/-!
# Condition number checks

Model of `est_condition` (matrix_solvers.py 433-533) and of its use with `check_cond` in the solvers of
gamm_solvers.py: `solve_gamm_sparse` (2847-2866, 3092-3112, 3189-3217), `solve_gammlss_sparse` (6393-6411),
`solve_generalSmooth_sparse` (9681-9699).

scipy's `svds(A, k=1)` is specified: it returns the largest singular value, which is the operator norm for
Euclidean lengths; with the solvers "arpack" and "lobpcg" it raises if `k` exceeds `min(A.shape) - 1`, and it may
fail to converge (a flag). Arithmetic is exact.
-/

namespace Verif.Cond

open Matrix
open scoped Matrix.Norms.L2Operator

/-- `u` (472). -/
noncomputable def u : ℝ := 0.5 * 2 ^ (-52 : ℤ)

/-- scipy `svds(A, k=1, return_singular_vectors=False)[0]`; `none` for an exception. -/
noncomputable def svds (converges : Bool) {m n : ℕ} (A : Matrix (Fin m) (Fin n) ℝ) : Option ℝ :=
  if converges = true ∧ 1 ≤ min m n - 1 then some ‖A‖ else none

/-- Return value of `est_condition`. -/
structure Res where
  K : EReal
  maxSing : EReal
  minSing : EReal
  code : ℕ

/-- Lines 510-533. -/
noncomputable def finish (maxS minS : ℝ) : Res :=
  let K := maxS * minS
  let code := 0
  let code := if K > 1 / √u then 1 else code
  let code := if K > 1 / u then 2 else code
  ⟨(K : EReal), (maxS : EReal), if minS = 0 then ⊤ else ((1 / minS : ℝ) : EReal), code⟩

/-- `est_condition` (471-533); `arp`, `lob`: whether the solvers converge for `Linv` and `L`. -/
noncomputable def estCondition (arp lob : Bool × Bool) {n : ℕ} (L Linv : Matrix (Fin n) (Fin n) ℝ) : Res :=
  match svds arp.1 Linv, svds arp.2 L with
  | some minS, some maxS => finish maxS minS
  | _, _ =>
    match svds lob.1 Linv, svds lob.2 L with
    | some minS, some maxS => finish maxS minS
    | _, _ => ⟨⊤, ⊤, ⊥, 1⟩

/-- Exceptions of the checks. -/
inductive Err
  | arithmetic
  | type
  deriving DecidableEq

/-- Checks after every new system with `check_cond=2` (2851-2866, 3097-3112). -/
def iterErr (chol : Bool) (code : ℕ) : Option Err :=
  if chol = true ∧ code = 1 then some .arithmetic
  else if chol = false ∧ code = 2 then some .arithmetic
  else none

/-- What the solvers report: `fit_info.code`, `fit_info.K2`, whether a warning was issued. -/
structure Info where
  code : ℕ
  K2 : Option EReal
  warned : Bool

/-- Check after convergence with `check_cond=1` (3190-3217); `raise warnings.warn(..)` (3209) issues the warning and then raises a
`TypeError`, since `warnings.warn` returns `None`. -/
def finalGam (chol : Bool) (r : Res) (fitCode : ℕ) : Except Err Info :=
  let code := if fitCode = 0 then r.code else fitCode
  if chol = false ∧ r.code = 2 then .error .type
  else .ok ⟨code, some r.K, chol && r.code == 1⟩

/-- The checks of `solve_gamm_sparse`: `first` and `later` are the values of `est_condition` for the systems of the first step (2847) and
of the iterations (3093), `last` for the final system, `fitCode` the value of `fit_info.code` before the final check. -/
def checkGam (checkCond : ℕ) (chol : Bool) (first : Res) (later : List Res) (last : Res) (fitCode : ℕ) : Except Err Info :=
  if checkCond = 2 then
    match (first :: later).findSome? (fun r => iterErr chol r.code) with
    | some e => .error e
    | none => .ok ⟨fitCode, some ((first :: later).getLast (by simp)).K, false⟩
  else if checkCond = 1 then finalGam chol last fitCode
  else .ok ⟨fitCode, none, false⟩

/-- The checks of `solve_gammlss_sparse` (6393-6411, `qefs = false`) and of `solve_generalSmooth_sparse` (9681-9699). -/
def checkGsm (checkCond : ℕ) (qefs formVH : Bool) (last : Res) (fitCode : ℕ) : Info :=
  if checkCond = 1 ∧ (qefs = false ∨ formVH = true) then
    ⟨if fitCode = 0 then last.code else fitCode, some last.K, decide (last.code > 0)⟩
  else ⟨fitCode, none, false⟩

end Verif.Cond
