import Verif.StepModel
import Verif.DroppedModel

/-!
# Coefficient iterations of GAMMLSS and general smooth models

`update_coef_gammlss` (gamm_solvers.py 5324-5493) and `update_coef_gen_smooth` (7977-7985, 8254-8430)
for every method but "qEFS".  Both are the same loop: derivatives at the current coefficients, a proposal
(gradient step or Newton step), step length control (`Verif.Step.lssStep`, also the loop of
`correct_coef_step_gen_smooth` 6486-6517), possibly a random restart, a convergence test, and once at
convergence a check for coefficients that are not identifiable, after which the loop starts again without
them.

External: the log-likelihood with the matrices of the model, the penalty, what the derivatives give
(`Hs`: Hessian, factor and inverse factor of one iteration), the proposals, the random numbers, and the
outcome of `identify_drop`.
-/

namespace Verif.Coef
open Verif Verif.Step Verif.Dropped

/-- What the loop needs of a model with coefficients in `V`. -/
structure Ext (V Hs : Type) where
  /-- `family.llk` -/
  llk : V → Fl
  /-- `coef' S_emb coef` -/
  quad : V → ℝ
  /-- Hessian, factors: computed from the coefficients (5375-5383, 8284-8292) -/
  info : V → Hs
  /-- `newton_coef_smooth` (8292) -/
  newton : V → V
  /-- `gd_coef_smooth` with step size `a` (8290) -/
  gd : V → ℝ → V
  /-- ridge added by `newton_coef_smooth` -/
  ridge : V → ℝ
  /-- `norm.rvs(random_state=seed)` (5173, 6673) -/
  noise : ℕ → V

/-- Settings of a call. -/
structure Cfg where
  /-- `method == "Grad"` (5324, 7977) -/
  grad : Bool
  /-- `update_coef_gen_smooth` (`true`) or `update_coef_gammlss` -/
  general : Bool
  maxInner : ℕ
  minInner : ℕ
  outer : ℕ
  tol : ℝ

/-- Variables of the loop; `hess` is what the last iteration computed (`none` before the first, and for
"Grad"). -/
structure S (V Hs : Type) where
  coef : V
  llk : Fl
  pen : Fl
  a : ℝ
  eps : ℝ
  hess : Option Hs

variable {V Hs : Type} [AddCommGroup V] [Module ℝ V]

/-- Penalised log-likelihood with a given log-likelihood (8295, 8326). -/
noncomputable def penOf (P : Ext V Hs) (c : V) (l : Fl) : Fl := l - Fl.fin (1 / 2 * P.quad c)

/-- `np.abs(c_pen_llk - prev_llk_cur_pen) < conv_tol * np.abs(c_pen_llk)` (5418, 8330): comparisons with
`nan` or infinite values are false. -/
def Near (tol : ℝ) : Fl → Fl → Prop
  | .fin x, .fin y => |x - y| < tol * |x|
  | _, _ => False

/-- The problem handed to step length control. -/
def prob (P : Ext V Hs) : Prob V V V := ⟨id, id, P.llk, P.quad, true⟩

/-- Candidate `t` of a restart (5173-5175, 6673-6675): the scale is `0.5` for any `outer` since
`restart_counter = 0` (5414, 8323). -/
noncomputable def candidate (P : Ext V Hs) (inner t : ℕ) (c : V) : V :=
  (1 - 1 / 2 : ℝ) • c + (1 / 2 : ℝ) • P.noise (inner + t)

open Classical in
/-- `restart_coef_gammlss` / `restart_coef` (5168-5221, 6668-6692): first of thirty candidates with finite
penalised log-likelihood, otherwise the coefficients unchanged. -/
noncomputable def restart (P : Ext V Hs) (inner : ℕ) (c : V) : V :=
  match (List.range 30).find? fun t =>
      decide (penOf P (candidate P inner t c) (P.llk (candidate P inner t c))).IsFin with
  | some t => candidate P inner t c
  | none => c

/-- The proposal (5380-5383, 8289-8292). -/
def proposal (C : Cfg) (P : Ext V Hs) (s : S V Hs) : V :=
  if C.grad then P.gd s.coef s.a else P.newton s.coef

/-- Restart condition (5394-5399, 8306-8311): `near` is the convergence test after the step. -/
def Restarts (C : Cfg) (P : Ext V Hs) (inner : ℕ) (s : S V Hs) (pen prev : Fl) : Prop :=
  inner ≤ 20 ∧ Near C.tol pen prev ∧
    ((C.grad = true ∧ C.outer = 0) ∨ (C.general = true ∧ ¬(P.llk (proposal C P s)).IsFin))

/-- The penalised log-likelihood the step is compared with (5386, 8295). -/
noncomputable def prevPen (P : Ext V Hs) (s : S V Hs) : Fl := penOf P s.coef s.llk

open Classical in
/-- One iteration up to the convergence test (5357-5416, 8280-8327). -/
noncomputable def round (C : Cfg) (P : Ext V Hs) (inner : ℕ) (s : S V Hs) : S V Hs :=
  let r := lssStep (prob P) s.coef (proposal C P s) s.llk s.a
  let h := if C.grad then s.hess else some (P.info s.coef)
  let e := if C.grad then s.eps else P.ridge s.coef
  if Restarts C P inner s r.1.pen (prevPen P s) then
    let c := restart P inner r.1.n
    ⟨c, P.llk c, penOf P c (P.llk c), 1 / 10, e, h⟩
  else ⟨r.1.n, r.1.llk, r.1.pen, r.2, e, h⟩

/-- How the iterations with one set of coefficients ended. -/
inductive End where
  /-- `inner >= max_inner` (5354, 8277) -/
  | exhausted
  /-- the convergence test (5418, 8330) -/
  | converged
  /-- `eps <= 0 and outer > 0 and inner >= min_inner - 1` (5475, 8393) -/
  | early
  deriving DecidableEq

/-- 5475, 8393, `inner` an iteration counted from zero. -/
def Early (C : Cfg) (inner : ℕ) (eps : ℝ) : Prop := eps ≤ 0 ∧ C.outer > 0 ∧ C.minInner ≤ inner + 1

open Classical in
/-- Iterations `inner, inner + 1, …` with one set of coefficients (5352-5478, 8275-8396), `left` still
allowed. -/
noncomputable def phase (C : Cfg) (P : Ext V Hs) : ℕ → ℕ → S V Hs → S V Hs × End
  | 0, _, s => (s, .exhausted)
  | left + 1, inner, s =>
    let s' := round C P inner s
    if Near C.tol s'.pen (prevPen P s) then (s', .converged)
    else if Early C inner s'.eps then (s', .early)
    else phase C P left (inner + 1) s'

/-! ### Removal of coefficients -/

variable {n : ℕ}

/-- Results: coefficients padded with zeros, the numbers belonging to them, the last iteration's
derivatives (of the coefficients kept), and `keep` (`none`: nothing dropped). -/
structure Res (n : ℕ) (Hs : Type) where
  coef : Fin n → ℝ
  llk : Fl
  pen : Fl
  hess : Option Hs
  keep : Option (Finset (Fin n))

/-- A call ends with results, or with an `IndexError` when a full-size factor is padded as if it had
been computed without the dropped coefficients (5484-5486, 8421-8423). -/
inductive Ret (n : ℕ) (Hs : Type) where
  | ok (r : Res n Hs)
  | indexError

/-- `coef[keep]` (5079, 6799). -/
def restrict (K : Finset (Fin n)) (c : Fin n → ℝ) : K → ℝ := fun i => c i

/-- State after dropping (5345, 5464, 8268, 8382): coefficients restricted, log-likelihood of the reduced
model. -/
noncomputable def reduced {Hs : Type} (P : ∀ K : Finset (Fin n), Ext (K → ℝ) Hs) (K : Finset (Fin n))
    (c : Fin n → ℝ) (a eps : ℝ) (h : Option Hs) : S (K → ℝ) Hs :=
  ⟨restrict K c, (P K).llk (restrict K c), penOf (P K) (restrict K c) ((P K).llk (restrict K c)), a, eps, h⟩

/-- Results without drop (8429). -/
def whole {Hs : Type} (s : S (Fin n → ℝ) Hs) : Ret n Hs := .ok ⟨s.coef, s.llk, s.pen, s.hess, none⟩

/-- Results with drop (5481-5489, 8418-8426). -/
def padded {Hs : Type} (K : Finset (Fin n)) (s : S (K → ℝ) Hs) : Ret n Hs :=
  .ok ⟨padV K s.coef, s.llk, s.pen, s.hess, some K⟩

open Classical in
/-- The drop check at convergence (5427-5449, 8340-8377): `found` is the set kept by `identify_drop`
(after excluding the extra coefficients), `none` if nothing is to be dropped. -/
noncomputable def accepted {Hs : Type} (P : ∀ K : Finset (Fin n), Ext (K → ℝ) Hs)
    (found : Option (Finset (Fin n))) (c : Fin n → ℝ) : Option (Finset (Fin n)) :=
  match found with
  | none => none
  | some K =>
    if ¬(penOf (P K) (restrict K c) ((P K).llk (restrict K c))).IsFin then none
    else if n - 1 ≤ n - K.card then none
    else some K

open Classical in
/-- `update_coef_gammlss` / `update_coef_gen_smooth`: `F` the full model, `P K` the model with the
coefficients `K` only, `identify` the outcome of `identify_drop` for the derivatives of the last iteration
(`checks`: a method that checks at all, 5425, 8338).  `c_pen_llk` and `eps` have no value before the first
iteration; with `maxInner = 0` the code raises a `NameError`. -/
noncomputable def update {Hs : Type} (C : Cfg) (F : Ext (Fin n → ℝ) Hs)
    (P : ∀ K : Finset (Fin n), Ext (K → ℝ) Hs) (checks : Bool) (identify : Option Hs → Option (Finset (Fin n)))
    (keepDrop : Option (Finset (Fin n))) (c : Fin n → ℝ) (llk : Fl) : Ret n Hs :=
  match keepDrop with
  | some K => padded K (phase C (P K) C.maxInner 0 (reduced P K c (1 / 10) 0 none)).1
  | none =>
    let r := phase C F C.maxInner 0 ⟨c, llk, penOf F c llk, 1 / 10, 0, none⟩
    if checks ∧ r.2 = .converged then
      match accepted P (identify r.1.hess) r.1.coef with
      | none => whole r.1
      | some K =>
        if r.1.eps ≤ 0 ∧ C.outer > 0 ∧ C.minInner = 0 then .indexError
        else padded K (phase C (P K) C.maxInner 0 (reduced P K r.1.coef r.1.a r.1.eps r.1.hess)).1
    else whole r.1

end Verif.Coef
