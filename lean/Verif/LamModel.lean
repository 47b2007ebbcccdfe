import Mathlib.Analysis.SpecialFunctions.Pow.Real
import Mathlib.Analysis.SpecialFunctions.Sqrt
import Mathlib.Algebra.BigOperators.Fin
import Mathlib.Data.Sign.Defs
import Mathlib.Data.Real.Sign

/-!
# Model of smoothing parameter updates
(`gamm_solvers.py`: `step_fellner_schall_sparse` 103-149, `grad_lambda` 152-182,
`init_step_gam` 1704-1719, `initialize_extension` 1861-1878, `extend_lambda_step` 1881-1998,
`undo_extension_lambda_step` 2001-2034, `correct_lambda_step` 2187-2549,
`solve_gamm_sparse` 2982-3045, `correct_lambda_step_gamlss` 5727-5941)

Real arithmetic.  The quantities that a pass of the step control computes from the current smoothing
parameters (coefficients, traces, quadratic forms, scale) are an arbitrary function of the number of
the pass and the smoothing parameters.  `nan` records that the criterion of the pass evaluates to
`nan`.  Linear predictors are represented by the coefficients they were computed from.
-/

namespace Verif.Lam

/-- Smallest smoothing parameter (143). -/
noncomputable def lo : ℝ := 1 / 10 ^ 7
/-- Largest smoothing parameter (139, 144). -/
noncomputable def hi : ℝ := 10 ^ 7

/-- `step_fellner_schall_sparse` (131-149). -/
noncomputable def fsStep (lgdet ldet bSb cLam scale : ℝ) : ℝ :=
  let num := max 0 (lgdet - ldet)
  let denom := max 0 bSb
  let nLam := if denom ≤ 0 then hi else min (max (scale * (num / denom) * cLam) lo) hi
  nLam - cLam

/-- `grad_lambda` (182). -/
noncomputable def gradLam (lgdet ldet bSb scale : ℝ) : ℝ := lgdet / 2 - ldet / 2 - bSb / (2 * scale)

/-- Extension methods (1918, 1949). -/
inductive Method | expectedRatio | nesterov | nesterov2

/-- `sys.float_info.epsilon`. -/
noncomputable def macheps : ℝ := 1 / 2 ^ 52

/-- `target` of the expected ratio method (1928-1932). -/
noncomputable def target (iter : ℕ) : ℝ :=
  let expo : ℝ := if iter > 50 then min 0.9 (0.375 * (1.0025 : ℝ) ^ (iter - 50)) else 0.375
  2 - 2 / ((iter : ℝ) + 1) ^ expo

/-- Acceleration (1917-1982). -/
noncomputable def accel (m : Method) (iter : ℕ) (dLam diff : ℝ) : ℝ :=
  if Real.sign dLam = Real.sign diff then
    match m with
    | .expectedRatio =>
      let expected := target iter * |diff|
      if |dLam| < expected then Real.sign dLam * (|dLam| + expected) / 2 - dLam else 0
    | .nesterov =>
      if dLam > 1 ∧ diff < 1 then 0 else Real.sign dLam * (dLam ^ 2 / max macheps |diff|)
    | .nesterov2 =>
      if dLam > 1 ∧ diff < 1 then 0 else dLam * min 0.99 (|dLam| / max macheps (2 * |diff|))
  else 0

/-- What is stored for a smoothing parameter: `lTerm.lam`, `lam_delta[lti]`,
`extend_by["prev_lam"][lti]`, `extend_by["acc"][lti]`, `was_extended[lti]`, `lTerm.frozen`. -/
structure Term where
  lam : ℝ
  delta : ℝ
  prev : ℝ
  acc : ℝ
  ext : Bool
  frozen : Bool

/-- `extend_lambda_step` (1911-1998), storing the returned step in `delta`. -/
noncomputable def extend (m : Method) (iter : ℕ) (t : Term) (dLam : ℝ) : Term :=
  let acc := accel m iter dLam (t.lam - t.prev)
  let e := t.lam + dLam + acc
  if e < hi ∧ e > lo ∧ |acc| > 0 then
    { t with delta := dLam + acc, prev := t.lam, acc := acc, ext := true }
  else { t with delta := dLam, prev := t.lam, acc := 0, ext := false }

/-- `undo_extension_lambda_step` (2028-2034). -/
def undo (t : Term) : Term :=
  { t with lam := t.lam - t.acc, delta := t.delta - t.acc, acc := 0, ext := false }

/-- Halving the step (2451-2452, 5877-5878). -/
noncomputable def halve (t : Term) : Term :=
  { t with lam := t.lam - t.delta / 2, delta := t.delta / 2 }

/-- Arguments of `correct_lambda_step` that matter here; `strict`: Gaussian family with identity link;
`inner`: `max_inner > 1`. -/
structure Cfg where
  strict : Bool
  inner : Bool
  extend : Bool
  exclude : Bool
  control : ℕ
  method : Method
  oIter : ℕ
  penDev : ℝ

/-- Results of one pass for the current smoothing parameters (2203-2399). -/
structure Pass (m : ℕ) (V : Type) where
  nCoef : V
  lgdet : Fin m → ℝ
  ldet : Fin m → ℝ
  bsb : Fin m → ℝ
  scale : ℝ
  nan : Bool

variable {m : ℕ} {V : Type}

/-- `lam_grad` (2396-2399). -/
noncomputable def Pass.grad (p : Pass m V) (i : Fin m) : ℝ :=
  gradLam (p.lgdet i) (p.ldet i) (p.bsb i) p.scale

/-- `check_criterion` (2408-2415). -/
noncomputable def crit (c : Cfg) : ℝ :=
  if c.strict = false ∧ c.control < 2 ∧ c.oIter > 0 then -(1 / 10 ^ 7 * |c.penDev|) else 0

/-- `check[0, 0]` (2401, 2409-2421); `none` is `nan`. -/
noncomputable def check (c : Cfg) (p : Pass m V) (ts : Fin m → Term) : Option ℝ :=
  if p.nan then none
  else
    let v := ∑ i, p.grad i * (ts i).delta
    if c.strict = false ∧ c.control < 2 ∧ v < crit c ∧ (c.extend = false ∨ ∀ i, (ts i).ext = false) then
      some (crit c + 1)
    else some v

/-- Correction of one smoothing parameter (2429-2453) and whether it was changed. -/
noncomputable def correctTerm (c : Cfg) (t : Term) : Term × Bool :=
  if c.extend = true ∧ t.ext = true then (undo t, true)
  else if c.strict = true ∨ c.control = 2 then (halve t, true)
  else (t, false)

/-- `np.linalg.norm(lam_delta)`. -/
noncomputable def norm (ts : Fin m → Term) : ℝ := Real.sqrt (∑ i, (ts i).delta ^ 2)

/-- Proposal of the next step (2486-2521). -/
noncomputable def propose (c : Cfg) (p : Pass m V) (i : Fin m) (t : Term) : Term :=
  if (¬(t.lam > 10 ^ 5 ∧ p.grad i ^ 2 / t.lam < 1 / 10 ^ 8) ∨ c.exclude = false) ∧ t.frozen = false then
    let dLam := fsStep (p.lgdet i) (p.ldet i) (p.bsb i) t.lam p.scale
    if c.extend = true then extend c.method c.oIter t dLam else { t with delta := dLam }
  else { t with delta := 0, ext := false }

/-- What `correct_lambda_step` returns: smoothing parameters with the next steps, coefficients, and
the coefficients that the returned linear predictor was computed from. -/
structure Res (m : ℕ) (V : Type) where
  terms : Fin m → Term
  nCoef : V
  etaOf : V

/-- `check[0, 0] >= check_criterion`, false for `nan`. -/
noncomputable def okB (c : Cfg) (p : Pass m V) (ts : Fin m → Term) : Bool :=
  match check c p ts with
  | none => false
  | some v => decide (crit c ≤ v)

/-- `check[0, 0] < check_criterion`, false for `nan`. -/
noncomputable def badB (c : Cfg) (p : Pass m V) (ts : Fin m → Term) : Bool :=
  match check c p ts with
  | none => false
  | some v => decide (v < crit c)

/-- `lam_changes == 0 or np.linalg.norm(lam_delta) < 1e-7` after the correction (2456). -/
def Tiny (c : Cfg) (ts : Fin m → Term) : Prop :=
  (∀ i, (correctTerm c (ts i)).2 = false) ∨ norm (fun i => (correctTerm c (ts i)).1) < 1 / 10 ^ 7

/-- Coefficients behind the linear predictor after a correction (2460-2470). -/
def resetEta (c : Cfg) (coef nCoef : V) : V :=
  if c.inner = true ∧ c.strict = false then coef else nCoef

open Classical in
/-- One pass of the `while` loop (2201-2525): either the corrected smoothing parameters for the next
pass or the result. -/
noncomputable def pass (c : Cfg) (coef : V) (p : Pass m V) (ts : Fin m → Term) :
    (Fin m → Term) ⊕ Res m V :=
  if badB c p ts = true ∧ c.control > 0 then
    if Tiny c ts then
      .inr ⟨fun i => propose c p i (correctTerm c (ts i)).1, p.nCoef, resetEta c coef p.nCoef⟩
    else .inl fun i => (correctTerm c (ts i)).1
  else if okB c p ts = true ∨ c.control = 0 then
    .inr ⟨fun i => propose c p i (ts i), p.nCoef, p.nCoef⟩
  else .inl ts

/-- The `while` loop, stopped after `fuel` passes; `none`: still running. -/
noncomputable def loop (c : Cfg) (coef : V) (ps : ℕ → (Fin m → ℝ) → Pass m V) :
    ℕ → ℕ → (Fin m → Term) → Option (Res m V)
  | 0, _, _ => none
  | fuel + 1, k, ts =>
    match pass c coef (ps k fun i => (ts i).lam) ts with
    | .inl ts' => loop c coef ps fuel (k + 1) ts'
    | .inr r => some r

/-- First proposal (1707-1719) for starting values `t.lam`, with nothing extended. -/
noncomputable def initStep (p : Pass m V) (i : Fin m) (t : Term) : Term :=
  { t with
    delta := if t.frozen then 0 else fsStep (p.lgdet i) (p.ldet i) (p.bsb i) t.lam p.scale
    prev := t.lam
    acc := 0
    ext := false }

/-- `lTerm.lam += lam_delta[lti][0]` (2985-2986). -/
def applyStep (t : Term) : Term := { t with lam := t.lam + t.delta }

/-- The outer iterations (2879-3122) as far as smoothing parameters are concerned: one element of the
list per iteration, with its arguments, passes and current coefficients. -/
noncomputable def fit (fuel : ℕ) :
    List (Cfg × V × (ℕ → (Fin m → ℝ) → Pass m V)) → (Fin m → Term) → Option (Fin m → Term)
  | [], ts => some ts
  | (c, coef, ps) :: rest, ts =>
    match loop c coef ps fuel 0 (fun i => applyStep (ts i)) with
    | none => none
    | some r => fit fuel rest r.terms

/-! ### Step control of location, scale and shape models -/

/-- Arguments of `correct_lambda_step_gamlss`; `eps`: ridge needed in this iteration or before. -/
structure CfgL where
  extend : Bool
  control : ℕ
  method : Method
  outer : ℕ

/-- Correction of one smoothing parameter (5856-5879). -/
noncomputable def correctTermL (c : CfgL) (t : Term) : Term × Bool :=
  if c.extend = true ∧ t.ext = true then (undo t, true)
  else if c.control = 2 then (halve t, true)
  else (t, false)

/-- Results of one pass (5730-5816); `penLlk` is the penalised log-likelihood of the new
coefficients, `ridge` whether the Hessian had to be modified now or before. -/
structure PassL (m : ℕ) where
  lgdet : Fin m → ℝ
  ldet : Fin m → ℝ
  bsb : Fin m → ℝ
  penLlk : ℝ
  nan : Bool
  ridge : Bool

/-- Proposal of the next step (5904-5941); `stepNorm` is the length of the accepted step. -/
noncomputable def proposeL (c : CfgL) (p : PassL m) (stepNorm : ℝ) (i : Fin m) (t : Term) : Term :=
  let d0 := if t.frozen then 0 else fsStep (p.lgdet i) (p.ldet i) (p.bsb i) t.lam 1
  let d1 := if p.lgdet i - p.ldet i < 0 then
      let d := Real.sign d0 * min (|t.lam| * 0.001) |d0|
      if t.lam + d < 0 then 0 else d
    else d0
  let t1 := if c.extend = true ∧ t.frozen = false then extend c.method c.outer t d1
    else { t with delta := d1 }
  if (c.outer > 100 ∧ stepNorm < 5 / 1000) ∨ (p.ridge = true ∧ c.outer > 50) then
    let damp : ℝ := 0.9 ^ (c.outer - 50)
    { t1 with delta := damp * t1.delta, acc := if t1.ext then t1.acc * damp else t1.acc }
  else t1

/-- `check[0] < 1e-7 * -abs(next_pen_llk)` (5852), false for `nan`. -/
def BadL (p : PassL m) (ts : Fin m → Term) : Prop :=
  p.nan = false ∧ ∑ i, gradLam (p.lgdet i) (p.ldet i) (p.bsb i) 1 * (ts i).delta
    < -(1 / 10 ^ 7 * |p.penLlk|)

/-- `lam_changes == 0 or np.linalg.norm(lam_delta) < 1e-7` after the correction (5882). -/
def TinyL (c : CfgL) (ts : Fin m → Term) : Prop :=
  (∀ i, (correctTermL c (ts i)).2 = false) ∨ norm (fun i => (correctTermL c (ts i)).1) < 1 / 10 ^ 7

/-- Exit without check (5832-5838). -/
def SkipL (c : CfgL) : Prop := c.outer = 0 ∨ c.control < 1 ∨ (c.extend = false ∧ c.control < 2)

/-- Proposals for all smoothing parameters (5895-5941). -/
noncomputable def doneL (c : CfgL) (p : PassL m) (ts : Fin m → Term) : Fin m → Term :=
  fun i => proposeL c p (norm ts) i (ts i)

open Classical in
/-- One pass (5728-5887) followed by the next proposal (5895-5941) when accepted. -/
noncomputable def passL (c : CfgL) (p : PassL m) (ts : Fin m → Term) :
    (Fin m → Term) ⊕ (Fin m → Term) :=
  if SkipL c then .inr (doneL c p ts)
  else if BadL p ts then
    if TinyL c ts then .inr (doneL c p fun i => (correctTermL c (ts i)).1)
    else .inl fun i => (correctTermL c (ts i)).1
  else .inr (doneL c p ts)

/-- The `while` loop (5728), stopped after `fuel` passes. -/
noncomputable def loopL (c : CfgL) (ps : ℕ → (Fin m → ℝ) → PassL m) :
    ℕ → ℕ → (Fin m → Term) → Option (Fin m → Term)
  | 0, _, _ => none
  | fuel + 1, k, ts =>
    match passL c (ps k fun i => (ts i).lam) ts with
    | .inl ts' => loopL c ps fuel (k + 1) ts'
    | .inr r => some r

end Verif.Lam
