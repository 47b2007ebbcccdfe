import Verif.CompactModel
import Mathlib.Analysis.SpecialFunctions.Pow.Real
import Mathlib.LinearAlgebra.Matrix.Trace
import Mathlib.Data.Matrix.ColumnRowPartitioned

/-!
# Cholesky factor, Hessian and degrees of freedom of a quasi-Newton fit (property C108)

Model of src/mssm/src/python/gamm_solvers.py: `getExplicitnH` (7379-7451), `getCholnH` (7454-7678), `computetrVS3` (619-706), the part of `getImplicitV` (709-887) that chooses between
approximations, the stored attributes that `sampleHcoef` (7837-7853) replaces, the end of `solve_generalSmooth_sparse` (9575-9577, 9588-9668), `compute_eigen_perm` (matrix_solvers.py 135-148) and
`uChol` (dchol.cpp 15-30).  The compact representations are those of `CompactModel`.

Exact arithmetic; `cholP`, `llt_inplace::rankUpdate` and `compute_Linv` are parameters (`Ext`).
-/

namespace Verif.Qfac

open Matrix Verif.Compact

variable {n m p q t f a : ℕ}

abbrev Mat (n : ℕ) := Matrix (Fin n) (Fin n) ℝ

/-- `compute_eigen_perm` (matrix_solvers.py 135-148): ones in rows `Pr`, columns `0, 1, ...`. -/
def permM (pr : Fin n → Fin n) : Mat n := Matrix.of fun i j => if pr j = i then 1 else 0

/-- Result of `cpp_cholP`: factor, indices of the permutation, `code == 0`. -/
structure CholRes (n : ℕ) where
  L : Mat n
  pr : Fin n → Fin n
  ok : Bool

/-- Routines of Eigen: pivoted Cholesky (eigen_solvers.cpp 51-77), rank one update of a Cholesky factor (Eigen, `llt_inplace::rankUpdate`), inverse of a lower triangular matrix. -/
structure Ext (n : ℕ) where
  chol : Mat n → CholRes n
  upd : Mat n → (Fin n → ℝ) → ℝ → Mat n
  linv : Mat n → Mat n

/-- `t1`, `t2` of `computeHSR1(explicit=False)` (compact_rep.py 312-313). -/
structure Low (n : ℕ) where
  k : ℕ
  t1 : Matrix (Fin n) (Fin k) ℝ
  t2 : Matrix (Fin k) (Fin k) ℝ

open Classical in
/-- `computeHSR1(make_psd=True, explicit=False)` (compact_rep.py 273-313): eigenvalues are replaced only if some must be; `pd`: `make_pd`. -/
noncomputable def lowHSR1 (omega : ℝ) (g : Fac n m) (d : Dec n p m) (pd : Option (ℝ × ℝ)) : Low n :=
  if ∃ i, fix omega d i then ⟨p, d.Q * d.P, Matrix.diagonal (newEv omega d pd)⟩ else ⟨m, g.t1, g.t2⟩

/-- Second QR and eigendecomposition (7645-7649): `p` columns. -/
structure Dec2 (n k : ℕ) where
  p : ℕ
  d : Dec n p k

/-- Columns of `U3` (7658-7663, 7669-7673): positive or negative eigenvalues. -/
noncomputable def updCols (P : Mat n) {k : ℕ} (e : Dec2 n k) (pos : Bool) : List (Fin n → ℝ) :=
  ((List.finRange e.p).filter fun i => if pos then 0 < e.d.ev i else e.d.ev i < 0).map fun i j =>
    (Pᵀ * e.d.Q * e.d.P) j i * √|e.d.ev i|

/-- `uChol` (dchol.cpp 15-30): one rank one update after another, the returned code is not looked at. -/
def uChol (x : Ext n) (L : Mat n) (us : List (Fin n → ℝ)) (sigma : ℝ) : Mat n := us.foldl (fun L u => x.upd L u sigma) L

/-- End of `getCholnH` (7625-7678) for `E` and the low-rank part. If the Cholesky factorisation fails, `E @ E.T` is singular (exact arithmetic), `cpp_qrr` returns a factor of the size
of the rank and the product `P @ Lp` (9667) raises: `none`. -/
noncomputable def cholUpd {ι : Type} [Fintype ι] (x : Ext n) (E : Matrix (Fin n) ι ℝ) (l : Low n) (e : Dec2 n l.k) : Option (Mat n × Mat n) :=
  let r := x.chol (E * Eᵀ)
  if r.ok then
    let P := (permM r.pr)ᵀ
    some (uChol x (uChol x r.L (updCols P e true) 1) (updCols P e false) (-1), P)
  else none

/-- `E` for a quasi-Newton approximation of all coefficients (7490, 7614, 7621-7625). -/
noncomputable def rootFull (Sroot : Matrix (Fin n) (Fin q) ℝ) (omega : ℝ) : Matrix (Fin n) (Fin q ⊕ Fin n) ℝ :=
  Matrix.fromCols Sroot (√omega • (1 : Mat n))

/-- Eigenvalues of `onHBB` (7584-7590); `pd`: option `PD_HBB` with `eps` and the largest absolute value. -/
noncomputable def fdEv (pd : Option (ℝ × ℝ)) (e : Eig f) (i : Fin f) : ℝ :=
  let v := if e.ev i < 0 then 0 else e.ev i
  match pd with
  | none => v
  | some (eps, mx) => if v < eps * mx then eps * mx else v

/-- `ieig` (7592-7593). -/
noncomputable def fdInv (pd : Option (ℝ × ℝ)) (e : Eig f) (i : Fin f) : ℝ := if 0 < fdEv pd e i then 1 / fdEv pd e i else 0

/-- `dsqrt`, `idsqrt` (7595-7598). -/
noncomputable def fdSqrt (x : Fin f → ℝ) (i : Fin f) : ℝ := if 0 < x i then √(x i) else 0

/-- `R1` (7601-7606). -/
noncomputable def root1 (tcols : Fin f ⊕ Fin a → Fin t) (nHfd : Mat t) (pd : Option (ℝ × ℝ)) (e : Eig f) : Matrix (Fin t) (Fin f) ℝ :=
  P1 tcols * Matrix.fromRows (e.U * Matrix.diagonal (fdSqrt (fdEv pd e))) ((Bb tcols nHfd)ᵀ * e.U * Matrix.diagonal (fdSqrt (fdInv pd e)))

open Classical in
/-- `R2` (7617-7619): `sqrt(omega)` for the quasi-Newton coefficients. -/
noncomputable def root2 (tcols : Fin f ⊕ Fin a → Fin t) (omega : ℝ) : Mat t :=
  Matrix.diagonal fun i => if ∃ j, tcols (Sum.inr j) = i then √omega else 0

/-- `E` if some coefficients have finite difference blocks (7490, 7607, 7621-7625). -/
noncomputable def rootPart (Sroot : Matrix (Fin t) (Fin q) ℝ) (tcols : Fin f ⊕ Fin a → Fin t) (nHfd : Mat t) (pd : Option (ℝ × ℝ)) (e : Eig f) (omega : ℝ) :
    Matrix (Fin t) ((Fin q ⊕ Fin f) ⊕ Fin t) ℝ :=
  Matrix.fromCols (Matrix.fromCols Sroot (root1 tcols nHfd pd e)) (root2 tcols omega)

/-- `nH4t1`, `nH4t2` (compact_rep.py 639-640), which are `t1`, `t2` in `getCholnH` (7530-7544). -/
def embedLow (tcols : Fin f ⊕ Fin a → Fin t) (l : Low a) : Low t := ⟨l.k, P2 tcols * l.t1, l.t2⟩

/-- `getExplicitnH` for a structured approximation (7437-7449). -/
noncomputable def explicitPart (tcols : Fin f ⊕ Fin a → Fin t) (nHfd : Mat t) (I : Mat f) (omega : ℝ) (l : Low a) : Mat t :=
  shExplicit tcols nHfd I (omega • (1 : Mat a)) (l.t1 * l.t2 * l.t1ᵀ)

/-- What is stored for intervals (9666-9668): `L = P @ Lp`, `LV = LVp @ P.T`. -/
def finish (x : Ext n) (r : Mat n × Mat n) : Mat n × Mat n := (r.2 * r.1, x.linv r.1 * r.2ᵀ)

/-- Factor when there are many pairs (9647-9651): Cholesky factorisation of the penalised Hessian, whose code is not looked at. -/
def direct (x : Ext n) (pH : Mat n) : Mat n × Mat n := let r := x.chol pH; (r.L, (permM r.pr)ᵀ)

open Classical in
/-- `form_VH` (9642-9668): `pairs` pairs for `n` coefficients, explicit Hessian, `S_emb`, and the factor obtained by updates. -/
noncomputable def formV (x : Ext n) (pairs : ℕ) (nH S : Mat n) (upd : Option (Mat n × Mat n)) : Option (Mat n × Mat n) :=
  if (pairs : ℝ) > 0.3 * n then some (finish x (direct x (nH + S))) else upd.map (finish x)

/-- Total penalty for smoothing parameters. -/
def penalty {k : ℕ} (S : Fin k → Mat n) (lam : Fin k → ℝ) : Mat n := ∑ j, lam j • S j

/-- Smoothing parameters held by `smooth_pen` after the outer loop: when the loop is left by `break` they belong to `S_emb`, otherwise the proposed step was added (9556, 9575-9577). -/
def lamEnd {k : ℕ} (converged : Bool) (lam delta : Fin k → ℝ) (j : Fin k) : ℝ := if converged then lam j else lam j + delta j

/-- `computetrVS3` (680-706): `V0` and corrections `t1 @ t2 @ t3`; columns `start, ..., start + len - 1`. -/
noncomputable def trVS (V0 : Mat n) (cs : List (Corr n)) (S : Mat n) (start len : ℕ) : ℝ :=
  ∑ c : Fin n, if start ≤ c.1 ∧ c.1 < start + len then (V0 * S) c c - (cs.map fun k : Corr n => (k.val * S) c c).sum else 0

/-- Number of penalised parameters by penalty and total degrees of freedom (967-992): `lam * tr(V S)`, `n` minus their sum. -/
noncomputable def edfOf {k : ℕ} (V : Mat n) (lam : Fin k → ℝ) (S : Fin k → Mat n) : ℝ := n - ∑ j, lam j * (V * S j).trace

/-- Attributes of the stored operator that matter for `getImplicitV`. -/
structure Linop (n : ℕ) where
  ncorrs : ℕ
  pairs : List (Pair n)
  nHfd : Mat n

/-- Constructor (8401): the number of pairs is counted. -/
def Linop.new (pairs : List (Pair n)) (nHfd : Mat n) : Linop n := ⟨pairs.length, pairs, nHfd⟩

/-- Attributes replaced by `sampleHcoef` for a structured approximation (7837-7853). -/
def Linop.resample (o : Linop n) (updates : ℕ) (pairs : List (Pair n)) (nHfd : Mat n) : Linop n :=
  if 0 < updates then { o with pairs := pairs, nHfd := nHfd } else o

/-- The approximation of the Hessian whose penalised inverse `getImplicitV` represents, structured case (762-885): `omega` from all elements of the pairs, `whole` is the matrix of
`computeSH`. -/
noncomputable def Linop.hess (o : Linop n) (omega : List (Pair n) → ℝ) (whole : List (Pair n) → Mat n → Mat n) : Mat n :=
  if o.ncorrs = 0 then (if o.pairs = [] then 1 else omega o.pairs) • (1 : Mat n) else whole o.pairs o.nHfd

end Verif.Qfac
