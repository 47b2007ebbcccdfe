import Verif.Fl
import Verif.LamModel
import Mathlib.Algebra.Module.Basic

/-!
# Model of the step-length control for coefficients and of the outer fitting loop
(`gamm_solvers.py`: `correct_coef_step` 1738-1858, `updateTheta` 2552-2635,
`correct_coef_step_gammlss` 4613-4733, `solve_gamm_sparse` 2879-3160)

Deviances and log-likelihoods are arbitrary functions with values in `Fl` (reals, infinities, `nan`).
Coefficients are elements of a real vector space.
-/

namespace Verif.Step

open Verif

/-- `x > y` for floats: false as soon as one of them is `nan`. -/
def Gt : Fl → Fl → Prop
  | .fin a, .fin b => a > b
  | .fin _, .ninf => True
  | .pinf, .fin _ => True
  | .pinf, .ninf => True
  | _, _ => False

/-- `x >= y`. -/
def Ge : Fl → Fl → Prop
  | .fin a, .fin b => a ≥ b
  | .fin _, .ninf => True
  | .pinf, .fin _ => True
  | .pinf, .ninf => True
  | .pinf, .pinf => True
  | .ninf, .ninf => True
  | _, _ => False

variable {V E M : Type} [AddCommGroup V] [Module ℝ V]

/-- What the step control evaluates: linear predictor, mean, deviance (after removal of `nan`
entries), penalty; `pen`: whether there are penalties. -/
structure Prob (V E M : Type) where
  etaF : V → E
  muF : E → M
  devF : M → Fl
  quad : V → ℝ
  pen : Bool

/-- Variables of the step control. -/
structure St (V E M : Type) where
  n : V
  eta : E
  mu : M
  dev : Fl
  pen : Fl

/-- Penalised deviance (1851-1853). -/
noncomputable def penDev (P : Prob V E M) (n : V) (dev : Fl) : Fl :=
  if P.pen then dev + Fl.fin (P.quad n) else dev

/-- Evaluation of coefficients (1822-1853). -/
noncomputable def evalAt (P : Prob V E M) (n : V) : St V E M where
  n := n
  eta := P.etaF n
  mu := P.muF (P.etaF n)
  dev := P.devF (P.muF (P.etaF n))
  pen := penDev P n (P.devF (P.muF (P.etaF n)))

/-- Midpoint (1814). -/
noncomputable def mid (a b : V) : V := (1 / 2 : ℝ) • (a + b)

open Classical in
/-- `correct_coef_step`; `none`: the loop has not ended after `fuel` tests of its condition. -/
noncomputable def coefLoop (P : Prob V E M) (coef : V) (cPrev : Fl) :
    ℕ → ℕ → St V E M → Option (St V E M)
  | 0, _, _ => none
  | fuel + 1, cor, s =>
    if Gt s.pen cPrev ∨ ¬s.pen.IsFin then
      let n := if cor > 30 then coef else s.n
      if cor > 31 then some { s with n := n }
      else coefLoop P coef cPrev fuel (cor + 1) (evalAt P (mid coef n))
    else some s

/-! ### Location, scale and shape models -/

/-- `correct_coef_step_gammlss`: `evalAt` gives coefficients, predictors, means, log-likelihood;
penalised log-likelihood `llk - 0.5 * coef' S coef`. -/
structure LSt (V E M : Type) where
  n : V
  eta : E
  mu : M
  llk : Fl
  pen : Fl

noncomputable def levalAt (P : Prob V E M) (n : V) : LSt V E M where
  n := n
  eta := P.etaF n
  mu := P.muF (P.etaF n)
  llk := P.devF (P.muF (P.etaF n))
  pen := P.devF (P.muF (P.etaF n)) - Fl.fin (1 / 2 * P.quad n)

open Classical in
/-- The loop over `n_checks` (4690-4725): `left` further checks; returns the state and the last value
of `n_checks`. -/
noncomputable def lssLoop (P : Prob V E M) (coef : V) (prev : Fl) : ℕ → ℕ → LSt V E M → LSt V E M × ℕ
  | 0, k, s => (s, k - 1)
  | left + 1, k, s =>
    if Ge s.pen prev ∧ s.pen.IsFin then (s, k)
    else
      let n := if k > 30 then coef else s.n
      lssLoop P coef prev left (k + 1) (levalAt P (mid coef n))

/-- `correct_coef_step_gammlss` (4662-4733): accepted state and gradient step size. -/
noncomputable def lssStep (P : Prob V E M) (coef next : V) (cLlk : Fl) (a : ℝ) : LSt V E M × ℝ :=
  let r := lssLoop P coef (cLlk - Fl.fin (1 / 2 * P.quad coef)) 32 0 (levalAt P next)
  (r.1, if r.2 > 0 ∧ a > 1 / 10 ^ 9 then a / 2 else if r.2 = 0 ∧ a < 1 then a * 2 else a)

/-! ### Shape parameters -/

open Classical in
/-- Step length control of `updateTheta` (2608-2622); `none`: return the current value (2614). -/
noncomputable def thetaInner (llk : V → Fl) (theta : V) (cllk : Fl) : ℕ → ℕ → V → Option V
  | 0, _, nt => some nt
  | left + 1, k, nt =>
    if Gt (llk nt) cllk ∧ (llk nt).IsFin then some nt
    else if k > 30 then none
    else thetaInner llk theta cllk left (k + 1) (mid theta nt)

/-- `updateTheta` (2583-2635): `conv` the convergence test, `newton` the proposed step. -/
noncomputable def thetaLoop (llk : V → Fl) (conv : V → Fl → Bool) (newton : V → V) : ℕ → V → Fl → V
  | 0, theta, _ => theta
  | left + 1, theta, cllk =>
    if conv theta cllk then theta
    else match thetaInner llk theta cllk 32 0 (newton theta) with
      | none => theta
      | some nt => thetaLoop llk conv newton left nt (llk nt)

noncomputable def updateTheta (llk : V → Fl) (conv : V → Fl → Bool) (newton : V → V) (theta : V) : V :=
  thetaLoop llk conv newton 200 theta (llk theta)

/-! ### The outer loop of `solve_gamm_sparse` -/

/-- Parameters of a fit.  `quadOf lams` is the penalty for smoothing parameters `lams`; the lambda step
is `Lam.loop` with the given configuration and passes.  Shape parameter updates and condition number
checks are left out. -/
structure Fit (m : ℕ) (V E M : Type) where
  etaF : V → E
  muF : E → M
  devF : M → Fl
  quadOf : (Fin m → ℝ) → V → ℝ
  cfg : ℕ → Lam.Cfg
  passes : ℕ → V → ℕ → (Fin m → ℝ) → Lam.Pass m V
  converged : Fl → Fl → Bool
  fuel : ℕ

/-- Variables of the loop; `lams` are the smoothing parameters behind `S_emb`. -/
structure FSt (m : ℕ) (V E M : Type) where
  coef : V
  nCoef : V
  eta : E
  mu : M
  dev : Fl
  pen : Fl
  prevDev : Fl
  prevPen : Fl
  terms : Fin m → Lam.Term

variable {m : ℕ}

/-- The problem under the current penalty. -/
def Fit.prob (F : Fit m V E M) (s : FSt m V E M) : Prob V E M where
  etaF := F.etaF
  muF := F.muF
  devF := F.devF
  quad := F.quadOf fun i => (s.terms i).lam
  pen := decide (0 < m)

/-- Whether coefficients are controlled in the outer loop (2897-2899). -/
def outerControl (c : Lam.Cfg) : Bool := c.inner = false || c.strict

/-- First half of an iteration with `o_iter > 0` (2881-2945). -/
noncomputable def accept (F : Fit m V E M) (o : ℕ) (s : FSt m V E M) : Option (FSt m V E M) :=
  let P := F.prob s
  let dev := F.devF s.mu
  let pen := penDev P s.nCoef dev
  let cPrev := penDev P s.coef s.prevDev
  if outerControl (F.cfg o) then
    match coefLoop P s.coef cPrev 34 0 ⟨s.nCoef, s.eta, s.mu, dev, pen⟩ with
    | none => none
    | some r => some { s with coef := r.n, eta := r.eta, mu := r.mu, dev := r.dev, pen := r.pen }
  else some { s with coef := s.nCoef, dev := dev, pen := pen }

/-- Second half of an iteration (2977-3043). -/
noncomputable def proposeCoef (F : Fit m V E M) (o : ℕ) (s : FSt m V E M) : Option (FSt m V E M) :=
  match Lam.loop (F.cfg o) s.coef (F.passes o s.coef) F.fuel 0 (fun i => Lam.applyStep (s.terms i)) with
  | none => none
  | some r => some { s with
      prevDev := s.dev
      prevPen := s.pen
      nCoef := r.nCoef
      eta := F.etaF r.etaOf
      mu := F.muF (F.etaF r.etaOf)
      terms := r.terms }

/-- The outer loop (2879-3122): `left` iterations remain.  The second component tells whether the
convergence test was met. -/
noncomputable def outer (F : Fit m V E M) : ℕ → ℕ → FSt m V E M → Option (FSt m V E M × Bool)
  | 0, _, s => some (s, false)
  | left + 1, o, s =>
    if o = 0 then
      match proposeCoef F o s with
      | none => none
      | some s' => outer F left (o + 1) s'
    else
      match accept F o s with
      | none => none
      | some s1 =>
        if F.converged s1.pen s1.prevPen then some (s1, true)
        else match proposeCoef F o s1 with
          | none => none
          | some s' => outer F left (o + 1) s'

/-- Start (2810-2843): coefficients with their predictors. -/
noncomputable def start (F : Fit m V E M) (coef : V) (terms : Fin m → Lam.Term) : FSt m V E M where
  coef := coef
  nCoef := coef
  eta := F.etaF coef
  mu := F.muF (F.etaF coef)
  dev := F.devF (F.muF (F.etaF coef))
  pen := F.devF (F.muF (F.etaF coef)) + Fl.fin (F.quadOf (fun i => (terms i).lam) coef)
  prevDev := .nan
  prevPen := .nan
  terms := terms

/-- Diagonal of the stored root of the weight matrix (3137-3156): `w` Fisher weights, `valid` which
observations are valid. -/
noncomputable def finalWr {n : ℕ} (w : Fin n → ℝ) (valid : Fin n → Bool) : Fin n → ℝ :=
  let wr : Fin n → ℝ := fun i => Real.sqrt (w i)
  if ∀ i, valid i = true then wr
  else fun i => Real.sqrt (if valid i then wr i else 0)

end Verif.Step
