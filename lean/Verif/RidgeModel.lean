import Verif.NewtonModel

/-!
# Reported Hessian and covariance of fits by Newton's method (property C113)

Model of the end of `update_coef_gammlss` (src/mssm/src/python/gamm_solvers.py 5495-5550) and
`update_coef_gen_smooth` (8432-8491), where the Hessian is perturbed until the derivatives with respect to the
smoothing parameters have the expected sign, and of the Hessian stored by `GAMMLSS.fit` and `GSMM.fit`
(src/mssm/models.py 2120-2129, 1210-1219).  `newton_coef_smooth` is taken from `NewtonModel`.  Exact real
arithmetic; no coefficients dropped; penalties without shared parameters (`id`).  The re-parameterisation is left
out: it multiplies Hessian and root by an orthogonal matrix, which does not change multiples of the identity.
-/

namespace Verif.Ridge

open Matrix Verif.Newton

variable {n : ℕ}

/-- A penalty: embedded root `D_J_emb` with `q` columns, `lam`, and `lt_rank` (8444-8446), which is `None` unless
the rank is to be used.  `S_J_emb` is the root times its transpose. -/
structure Pen (n : ℕ) where
  q : ℕ
  D : Matrix (Fin n) (Fin q) ℝ
  lam : ℝ
  rank : Option ℕ

/-- What does not change: the decomposition, passes allowed in `newton_coef_smooth`, coefficients, gradient,
Hessian, penalty matrix and `S_pinv`. -/
structure Env (n : ℕ) where
  chol : Matrix (Fin n) (Fin n) ℝ → Option (Matrix (Fin n) (Fin n) ℝ × Equiv.Perm (Fin n))
  fuel : ℕ
  coef : Fin n → ℝ
  grad : Fin n → ℝ
  H : Matrix (Fin n) (Fin n) ℝ
  S : Matrix (Fin n) (Fin n) ℝ
  Sinv : Matrix (Fin n) (Fin n) ℝ

/-- `lgdet_deriv` (`compute_lgdetD_bsb`, 92-95). -/
noncomputable def lgdetD (gInv : Matrix (Fin n) (Fin n) ℝ) (p : Pen n) : ℝ :=
  match p.rank with
  | some r => r / p.lam
  | none => (gInv * (p.D * p.Dᵀ)).trace

/-- `Bps`, the entry of `ldetHSs` (969-970). -/
def trB (LV : Matrix (Fin n) (Fin n) ℝ) (p : Pen n) : ℝ := ∑ i, ∑ k, (LV * p.D) i k ^ 2

/-- `checkH` (5521-5523, 8462-8464). -/
def violated (gInv LV : Matrix (Fin n) (Fin n) ℝ) (pens : List (Pen n)) : Prop :=
  ∃ p ∈ pens, lgdetD gInv p - trB LV p < 0

/-- `eps`, `L` and `LV`. -/
structure St (n : ℕ) where
  eps : ℝ
  L : Matrix (Fin n) (Fin n) ℝ
  LV : Matrix (Fin n) (Fin n) ℝ

open Classical in
/-- The loop (5513-5550, 8453-8491) with `k` passes left.  `none`: `newton_coef_smooth` needs more passes. -/
noncomputable def loop (E : Env n) (pens : List (Pen n)) : ℕ → St n → Option (St n)
  | 0, st => some st
  | k + 1, st =>
    if violated E.Sinv st.LV pens then
      let eps := if st.eps = 0 then st.eps + 1 / 10 ^ 14 else st.eps * 2
      match newton E.chol E.fuel E.coef E.grad (E.H - eps • (1 : Matrix (Fin n) (Fin n) ℝ)) E.S with
      | none => none
      | some o => loop E pens k ⟨eps, o.L, o.LV⟩
    else some st

/-- The last Newton step (5383, 8292) and the loop: `checkHc` is 31 in the last pass, the 32nd. -/
noncomputable def finish (E : Env n) (pens : List (Pen n)) : Option (St n) :=
  match newton E.chol E.fuel E.coef E.grad E.H E.S with
  | none => none
  | some o => loop E pens 32 ⟨o.eps, o.L, o.LV⟩

/-- `self.hessian` (models.py 1210-1219, 2120-2129). -/
noncomputable def stored (H : Matrix (Fin n) (Fin n) ℝ) (eps : ℝ) : Matrix (Fin n) (Fin n) ℝ :=
  if eps > 0 then H - eps • (1 : Matrix (Fin n) (Fin n) ℝ) else H

end Verif.Ridge
