import Verif.MvnModel
import Verif.NutsModel
import Mathlib.Data.Matrix.Block
import Mathlib.LinearAlgebra.Matrix.NonsingularInverse

/-!
# The target of the sampler (properties C69-C72)

Model of the parts of `sample_mssm` (src/mssm/src/python/mcmc.py 588-1071) that build the log joint density, its
gradient, the metric and the momentum sampler.
The coefficients `ι` include the extra ones (log scale, theta); `κ` are the penalties in `r_pen`.
-/

namespace Verif.Joint

open Matrix

variable {ι κ : Type} [Fintype ι] [DecidableEq ι] [Fintype κ] [DecidableEq κ]

/-- What the wrappers refer to: the family's log-likelihood and gradient (949, 1017), `S_J_emb` and `rank` of the
penalties in `r_pen`, results of `compute_S_emb_pinv_det` (`FS_use_rank`, `SJ_pinv` at given smoothing parameters),
`lgdetS` (979-1001), the prior of the log smoothing parameters and `S_f_emb` (`none` without `make_proper`). -/
structure Ctx (ι κ : Type) where
  llk : (ι → ℝ) → ℝ
  grad : (ι → ℝ) → ι → ℝ
  S : κ → Matrix ι ι ℝ
  rank : κ → ℕ
  useRank : κ → Bool
  pinv : (κ → ℝ) → Matrix ι ι ℝ
  lgdetS : (κ → ℝ) → ℝ
  logp : (κ → ℝ) → ℝ
  dlogp : (κ → ℝ) → κ → ℝ
  Sf : Option (Matrix ι ι ℝ)

/-- `S_emb` for smoothing parameters `lam` (gamm_solvers.py 233-240). -/
def sEmb (C : Ctx ι κ) (lam : κ → ℝ) : Matrix ι ι ℝ := ∑ k, lam k • C.S k

/-- `S_emb += S_f_emb` (939), `S_embr += S_f_emb` (1004-1005, 1034-1035). -/
def sAll (C : Ctx ι κ) (lam : κ → ℝ) : Matrix ι ι ℝ :=
  match C.Sf with
  | none => sEmb C lam
  | some F => sEmb C lam + F

/-- `llk_wrapper` without smoothing parameters (946-957). -/
noncomputable def llkFixed (C : Ctx ι κ) (lam : κ → ℝ) (c : ι → ℝ) : ℝ :=
  C.llk c - 1 / 2 * (c ⬝ᵥ sAll C lam *ᵥ c)

/-- `grad_wrapper` without smoothing parameters (1043-1048). -/
def gradFixed (C : Ctx ι κ) (lam : κ → ℝ) (c : ι → ℝ) (i : ι) : ℝ :=
  C.grad c i - (sAll C lam *ᵥ c) i

/-- Coefficients (946) and log smoothing parameters (952) of the state. -/
def coefOf (w : ι ⊕ κ → ℝ) : ι → ℝ := fun i => w (.inl i)
def rhoOf (w : ι ⊕ κ → ℝ) : κ → ℝ := fun k => w (.inr k)

/-- `r_pen[lami].lam = np.exp(lrho[0])` (961-962, 1024-1025). -/
noncomputable def lamOf (w : ι ⊕ κ → ℝ) : κ → ℝ := fun k => Real.exp (w (.inr k))

/-- `llk_wrapper` (943-1010). -/
noncomputable def llkJoint (C : Ctx ι κ) (w : ι ⊕ κ → ℝ) : ℝ :=
  C.llk (coefOf w) + C.logp (rhoOf w) - 1 / 2 * (coefOf w ⬝ᵥ sAll C (lamOf w) *ᵥ coefOf w)
    + 1 / 2 * C.lgdetS (lamOf w)

/-- `tr` (1055-1058). -/
noncomputable def trTerm (C : Ctx ι κ) (lam : κ → ℝ) (k : κ) : ℝ :=
  if C.useRank k then C.rank k / lam k else (C.S k * C.pinv lam).trace

/-- `grad_wrapper` (1012-1067). -/
noncomputable def gradJoint (C : Ctx ι κ) (w : ι ⊕ κ → ℝ) : ι ⊕ κ → ℝ
  | .inl i => C.grad (coefOf w) i - (sAll C (lamOf w) *ᵥ coefOf w) i
  | .inr k => -(1 / 2) * lamOf w k * (coefOf w ⬝ᵥ C.S k *ᵥ coefOf w)
      + 1 / 2 * lamOf w k * trTerm C (lamOf w) k + C.dlogp (rhoOf w) k

/-! ### Metric -/

/-- Cholesky factorisation with pivoting of `Minv`, inverse factor, `MLT` for the coefficients (664-668): `Pr` is the
permutation as a matrix, `Lp` the factor, `Li` its inverse. -/
structure PFactor (n : ℕ) (Minv : Matrix (Fin n) (Fin n) ℝ) where
  P : Matrix (Fin n) (Fin n) ℝ
  L : Matrix (Fin n) (Fin n) ℝ
  Li : Matrix (Fin n) (Fin n) ℝ
  orth : Pᵀ * P = 1
  fact : L * Lᵀ = P * Minv * Pᵀ
  inv : Li * L = 1

def mltCoef {n : ℕ} {Minv : Matrix (Fin n) (Fin n) ℝ} (f : PFactor n Minv) : Matrix (Fin n) (Fin n) ℝ := f.Li * f.P

/-- `nH_scale` (673-686). -/
noncomputable def nHScale (d2 : ℝ) (proper : Bool) (lam0 cov : ℝ) : ℝ :=
  ((if -1 * d2 ≤ 0 then 1 / 10000 else -1 * d2) + 1 / 10 + if proper then lam0 else 0) / cov

/-- Eigenvalues below the threshold are raised (719-720, 749-750). -/
noncomputable def raise {m : Type} (thresh : ℝ) (e : m → ℝ) : m → ℝ := fun i => if e i < thresh then thresh else e i

/-- `np.diag(f(e)) @ U.T`. -/
def diagT {m : Type} [Fintype m] [DecidableEq m] (d : m → ℝ) (U : Matrix m m ℝ) : Matrix m m ℝ := diagonal d * Uᵀ

/-- Block of `MLT` for theta: `Re_theta` (723, 730). -/
noncomputable def reTheta {m : Type} [Fintype m] [DecidableEq m] (thresh cov : ℝ) (e : m → ℝ) (U : Matrix m m ℝ) : Matrix m m ℝ :=
  diagT (fun i => √(raise thresh e i / cov)) U

/-- Block of `Minv` for theta: `inH_theta` (723-727). -/
noncomputable def inHTheta {m : Type} [Fintype m] [DecidableEq m] (thresh cov : ℝ) (e : m → ℝ) (U : Matrix m m ℝ) : Matrix m m ℝ :=
  (diagT (fun i => √(1 / (raise thresh e i / cov))) U)ᵀ * diagT (fun i => √(1 / (raise thresh e i / cov))) U

/-- Block of `MLT` for the log smoothing parameters: `Ri` (753-759). -/
noncomputable def riRho {m : Type} [Fintype m] [DecidableEq m] (thresh cov : ℝ) (e : m → ℝ) (U : Matrix m m ℝ) : Matrix m m ℝ :=
  diagT (fun i => 1 / √(raise thresh e i * cov)) U

/-- Block of `Minv` for the log smoothing parameters: `Vpreg` (756-761). -/
noncomputable def vpRho {m : Type} [Fintype m] [DecidableEq m] (thresh cov : ℝ) (e : m → ℝ) (U : Matrix m m ℝ) : Matrix m m ℝ :=
  (diagT (fun i => √(raise thresh e i * cov)) U)ᵀ * diagT (fun i => √(raise thresh e i * cov)) U

/-- `scp.sparse.block_array([[A, None], [None, B]])` (691-698, 732-733, 766-768). -/
def stack {a b : Type} (A : Matrix a a ℝ) (B : Matrix b b ℝ) : Matrix (a ⊕ b) (a ⊕ b) ℝ := fromBlocks A 0 0 B

/-! ### Vague priors (857-939) -/

/-- `S_f_emb` for coefficients of linear terms (870-873) and extra coefficients (876-896): entry on the diagonal. -/
def vague (lin : ι → Bool) (lam0 : ℝ) (extra : ι → Option ℝ) : Matrix ι ι ℝ :=
  diagonal fun i => (if lin i then lam0 else 0) + (extra i).getD 0

/-- A penalty of the rebuilt formulas: formula, term, whether it is a null-space penalty, embedded matrix. -/
structure NPen (ι : Type) where
  form : ℕ
  term : ℕ
  null : Bool
  S : Matrix ι ι ℝ

/-- Loop over the rebuilt penalties (929-936): `fidx` and `tidx` are the lists filled at 917-918. -/
noncomputable def addNull (fidx tidx : List ℕ) (lam0 : ℝ) (S : Matrix ι ι ℝ) (pens : List (NPen ι)) : Matrix ι ι ℝ :=
  pens.foldl (fun S p => if p.form ∈ fidx ∧ p.term ∈ tidx ∧ p.null = true then S + lam0 • p.S else S) S

/-- The lists `NP_fidx`, `NP_tidx` (901-918): `skip` says that a smooth term is a random smooth or has a null-space
penalty already (912). -/
def updated (smooths : List (ℕ × ℕ)) (skip : ℕ × ℕ → Bool) : List ℕ × List ℕ :=
  let u := smooths.filter fun t => !skip t
  (u.map Prod.fst, u.map Prod.snd)

/-! ### Smoothing parameters in the target (599, 738-743, 855) -/

/-- Smoothing parameters used for the starting penalty: divided by the scale only when they are sampled and the
family has a scale parameter. -/
noncomputable def lamStart (sampleRho twopar : Bool) (scale : ℝ) (lam : κ → ℝ) : κ → ℝ :=
  if sampleRho ∧ twopar then fun k => Real.exp (Real.log (lam k / scale)) else lam

end Verif.Joint
