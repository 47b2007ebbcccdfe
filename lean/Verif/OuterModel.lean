import Verif.LamModel
import Mathlib.Data.List.Basic

/-!
# The outer iterations of location, scale and shape models and of general smooth models

Model of `solve_gammlss_sparse` (gamm_solvers.py 6203-6438) and `solve_generalSmooth_sparse`
(9341-9711, without the final approximation of the Hessian for `method="qEFS"`, 9598-9672), with the
step control of `correct_lambda_step_gamlss` (5724-5979) and `correct_lambda_step_gen_smooth`
(8684-9029) taken from `Verif.Lam`.

Coefficients are elements of an arbitrary type `V`; estimating them for given smoothing parameters
(`update_coef_gammlss`, `update_coef_gen_smooth`, `calculate_edf`) is an external function `est`, and
so are the random restarts.  Models without penalties (6212-6252, 9343-9394), progress bars, callbacks
and the condition number are left out.
-/

namespace Verif.Outer
open Verif.Lam

variable {m : ℕ} {V : Type}

/-- What is computed for given smoothing parameters in one pass: the coefficients, the quantities of
`PassL`, the total effective degrees of freedom, whether coefficients were dropped (`drop is not
None`), the number `LV.nit` of updates, and the `ldetHS` and `total_edf` that follow from the previous
approximation of the Hessian (8872-8882). -/
structure Est (m : ℕ) (V : Type) where
  coef : V
  pass : PassL m
  edf : ℝ
  dropped : Bool
  nit : ℕ
  ldetOld : Fin m → ℝ
  edfOld : ℝ

/-- Arguments of a fit.  `gen`: general smooth model rather than a GAMMLSS; `qefs`: `method="qEFS"`.
`est o k lam coef` are the results of pass `k` in iteration `o`, for smoothing parameters `lam` and
starting from `coef`.  `quad lam coef` is `coef.T @ S_emb @ coef`; `restart o n lam coef` is the vector
`restart_coef` returns and `penOf lam coef` the penalised log-likelihood it returns with it. -/
structure Args (m : ℕ) (V : Type) where
  gen : Bool
  qefs : Bool
  extend : Bool
  control : ℕ
  method : Method
  maxRestarts : ℤ
  tol : ℝ
  est : ℕ → ℕ → (Fin m → ℝ) → V → Est m V
  quad : (Fin m → ℝ) → V → ℝ
  restart : ℕ → ℕ → (Fin m → ℝ) → V → V
  penOf : (Fin m → ℝ) → V → ℝ

/-- Arguments of the step control in iteration `o`.  General models halve steps if
`control_lambda >= 2` (8842), GAMMLSS only if `control_lambda == 2` (5873); all other conditions do not
distinguish 2 from larger values (5832-5836, 8804-8808). -/
def Args.cfg (A : Args m V) (o : ℕ) : CfgL :=
  ⟨A.extend, if A.gen then min A.control 2 else A.control, A.method, o⟩

/-- `mean |(lgdetD - ldetHS) - bsb|` (8883-8890), times the number of penalties. -/
def imbalance (p : PassL m) (ldet : Fin m → ℝ) : ℝ := ∑ i, |(p.lgdet i - ldet i) - p.bsb i|

/-- Whether the previous approximation of the Hessian is used (8870-8892). -/
def UseOld (A : Args m V) (o : ℕ) (e : Est m V) : Prop :=
  A.gen = true ∧ A.qefs = true ∧ (A.control = 1 ∨ A.control = 3) ∧ 0 < o ∧
    imbalance e.pass e.ldetOld < imbalance e.pass e.pass.ldet

open Classical in
/-- The estimates after that choice (8893-8899). -/
noncomputable def balance (A : Args m V) (o : ℕ) (e : Est m V) : Est m V :=
  if UseOld A o e then { e with pass := { e.pass with ldet := e.ldetOld }, edf := e.edfOld } else e

open Classical in
/-- Check of the step (5832-5887, 8804-8856): the smoothing parameters after possible corrections, and
whether they are accepted. -/
noncomputable def check (c : CfgL) (p : PassL m) (ts : Fin m → Term) : (Fin m → Term) × Bool :=
  if SkipL c then (ts, true)
  else if BadL p ts then (fun i => (correctTermL c (ts i)).1, decide (TinyL c ts))
  else (ts, true)

/-- Result of the step control: `used` are the smoothing parameters that the coefficients, `S_emb` and
degrees of freedom were computed with, `terms` the smoothing parameters with the next steps, `from_`
the coefficients at which the estimation started, `k` the number of earlier passes. -/
structure Acc (m : ℕ) (V : Type) where
  used : Fin m → ℝ
  terms : Fin m → Term
  est : Est m V
  k : ℕ

/-- The `while` loop with the following proposal (5728-5941, 8685-8949), stopped after `fuel`
passes. -/
noncomputable def control (A : Args m V) (o : ℕ) (coef : V) :
    ℕ → ℕ → (Fin m → Term) → Option (Acc m V)
  | 0, _, _ => none
  | fuel + 1, k, ts =>
    let e := A.est o k (fun i => (ts i).lam) coef
    if (check (A.cfg o) e.pass ts).2 = true then
      some ⟨fun i => (ts i).lam, doneL (A.cfg o) (balance A o e).pass (check (A.cfg o) e.pass ts).1,
        balance A o e, k⟩
    else control A o coef fuel (k + 1) (check (A.cfg o) e.pass ts).1

/-- Variables of the loop: penalties with proposed steps, coefficients, `prev_llk_hist`, `prev_lam`,
`one_update_counter`, `restart_counter`. -/
structure St (m : ℕ) (V : Type) where
  terms : Fin m → Term
  coef : V
  hist : List ℝ
  prevLam : Fin m → ℝ
  one : ℕ
  restarts : ℕ

/-- What a fit returns: coefficients, the smoothing parameters in `overall_penalties`, the estimates
that the Hessian, its factor, the degrees of freedom and the fitted values stem from with the smoothing
parameters they were computed with, the penalty, and `fit_info.code`. -/
structure Out (m : ℕ) (V : Type) where
  coef : V
  lam : Fin m → ℝ
  used : Fin m → ℝ
  est : Est m V
  penalty : ℝ
  code : ℕ

/-- Whether a restart happens because only single updates are made (9461-9465), for the updated
`one_update_counter`. -/
def StuckB (A : Args m V) (o one restarts : ℕ) : Bool :=
  decide (3 < one) && (decide (o ≤ 10) || decide ((restarts : ℤ) < A.maxRestarts)) &&
    decide (0 ≤ A.maxRestarts)

/-- State between the step control and the convergence test (9453-9488): coefficients, penalised
log-likelihood, history and counters. -/
structure Mid (V : Type) where
  coef : V
  pen : ℝ
  hist : List ℝ
  one : ℕ
  restarts : ℕ

/-- Monitoring of single updates (9453-9488); nothing happens for other methods and GAMMLSS.  The last
element of an empty history would be an error (9488), but four iterations precede this. -/
def monitor (A : Args m V) (o : ℕ) (s : St m V) (a : Acc m V) : Mid V :=
  if A.gen = true ∧ A.qefs = true then
    let one := if a.est.nit = 1 then s.one + 1 else 0
    if StuckB A o one s.restarts = true then
      let c := A.restart o s.restarts a.used a.est.coef
      ⟨c, A.penOf a.used c, s.hist, one, s.restarts + 1⟩
    else if 3 < one then ⟨a.est.coef, a.est.pass.penLlk, s.hist.dropLast ++ [a.est.pass.penLlk], one, s.restarts⟩
    else ⟨a.est.coef, a.est.pass.penLlk, s.hist, one, s.restarts⟩
  else ⟨a.est.coef, a.est.pass.penLlk, s.hist, s.one, s.restarts⟩

/-- The convergence test (6318-6357, 9496-9533). -/
def Conv (A : Args m V) (o : ℕ) (s : St m V) (a : Acc m V) (d : Mid V) : Prop :=
  0 < o ∧ ((∃ h ∈ d.hist, |h - d.pen| < A.tol * |d.pen|) ∨
    (a.est.dropped = true ∧ ∀ i, |s.prevLam i - (a.terms i).lam| < 0.01) ∨
    (100 < o ∧ ∀ i, |(a.terms i).delta| < 0.01))

/-- The results if the loop is left now (6413-6438, 9588-9596). -/
def result (A : Args m V) (a : Acc m V) (coef : V) (ts : Fin m → Term) (code : ℕ) : Out m V :=
  ⟨coef, fun i => (ts i).lam, a.used, a.est, A.quad a.used coef, code⟩

/-- End of an iteration (6364-6376, 9562-9577). -/
def next (a : Acc m V) (coef : V) (pen : ℝ) (hist : List ℝ) (one restarts : ℕ) : St m V where
  terms := fun i => applyStep (a.terms i)
  coef := coef
  hist := if 5 < (hist ++ [pen]).length then (hist ++ [pen]).drop 1 else hist ++ [pen]
  prevLam := fun i => (a.terms i).lam
  one := one
  restarts := restarts

open Classical in
/-- One iteration after the step control (6311-6376, 9453-9577): the result, if converged, or the
state for the next iteration. -/
noncomputable def round (A : Args m V) (o : ℕ) (s : St m V) (a : Acc m V) : Out m V ⊕ St m V :=
  let d := monitor A o s a
  if Conv A o s a d then
    if A.gen = true ∧ A.qefs = true ∧ (d.restarts : ℤ) < A.maxRestarts then
      let c := A.restart o d.restarts a.used d.coef
      .inr (next a c (A.penOf a.used c) d.hist d.one (d.restarts + 1))
    else .inl (result A a d.coef a.terms 0)
  else .inr (next a d.coef d.pen d.hist d.one d.restarts)

/-- The loop (6254-6376, 9396-9577) with `left` iterations remaining, from iteration `o`; `last` is the
outcome of the last step control, if any.  `none`: the step control does not end within `fuel`, or
there was no iteration (`max_outer = 0`, names are undefined). -/
noncomputable def loop (A : Args m V) (fuel : ℕ) :
    ℕ → ℕ → Option (Acc m V) → St m V → Option (Out m V)
  | 0, _, last, s => last.map fun a => result A a s.coef s.terms 1
  | left + 1, o, _, s =>
    match control A o s.coef fuel 0 s.terms with
    | none => none
    | some a =>
      match round A o s a with
      | .inl r => some r
      | .inr s' => loop A fuel left (o + 1) (some a) s'

/-- Start of the iterations (6207-6210, 9362-9365): nothing proposed or extended. -/
def start (lam : Fin m → ℝ) (frozen : Fin m → Bool) (coef : V) : St m V where
  terms := fun i => ⟨lam i, 0, lam i, 0, false, frozen i⟩
  coef := coef
  hist := []
  prevLam := lam
  one := 0
  restarts := 0

/-- A fit with at most `maxOuter` iterations. -/
noncomputable def fit (A : Args m V) (fuel maxOuter : ℕ) (lam : Fin m → ℝ) (frozen : Fin m → Bool) (coef : V) :
    Option (Out m V) :=
  loop A fuel maxOuter 0 none (start lam frozen coef)

end Verif.Outer
