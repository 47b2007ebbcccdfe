import Mathlib.Analysis.SpecialFunctions.Sqrt
import Mathlib.Analysis.SpecialFunctions.Pow.Real
import Mathlib.LinearAlgebra.Matrix.NonsingularInverse
import Mathlib.LinearAlgebra.Matrix.Kronecker

/-!
# Re-parameterised smooth terms (property C92)

Model of `reparam` with options 1 to 3 (src/mssm/src/python/repara.py 149-277), of `absorb_repara` and the part of `build_penalty` that
uses its results (src/mssm/src/python/terms.py 487-639, 707-764), of the matrix of a re-parameterised term (terms.py 1260-1297) and of the
constraint found for it (src/mssm/src/python/formula.py 1603-1658).

Parameters: `R` is the factor found by `chol` or `qr` (182-194), `eigh` and `svd` scipy's decompositions. Matrices are dense. Marginals of
a tensor smooth all have `k` functions here.
-/

namespace Verif.NatPar

open Matrix

variable {n k : ℕ}

/-- Threshold of `reparam` (216). -/
noncomputable def thr : ℝ := 1e-7

/-- `B` (205-208). -/
noncomputable def natB (R S : Matrix (Fin k) (Fin k) ℝ) : Matrix (Fin k) (Fin k) ℝ :=
  (Rᵀ)⁻¹ * ((Rᵀ)⁻¹ * Sᵀ)ᵀ

/-- What `reparam` returns. -/
structure Out (k : ℕ) where
  C : Matrix (Fin k) (Fin k) ℝ
  Srp : Matrix (Fin k) (Fin k) ℝ
  Drp : Matrix (Fin k) (Fin k) ℝ
  rank : ℕ

/-- Flipped eigenvalues (213). -/
def flipS (e : (Fin k → ℝ) × Matrix (Fin k) (Fin k) ℝ) : Fin k → ℝ := fun i => e.1 i.rev

/-- Flipped eigenvectors (214). -/
def flipU (e : (Fin k → ℝ) × Matrix (Fin k) (Fin k) ℝ) : Matrix (Fin k) (Fin k) ℝ := Matrix.of fun i j => e.2 i j.rev

open Classical in
/-- `rank` (216). -/
noncomputable def rank (s : Fin k → ℝ) : ℕ := (Finset.univ.filter fun i => thr < s i).card

open Classical in
/-- Results before scaling (216-254). -/
noncomputable def base (R : Matrix (Fin k) (Fin k) ℝ) (s : Fin k → ℝ) (U : Matrix (Fin k) (Fin k) ℝ) (identity : Bool) : Out k :=
  let C := R⁻¹ * U
  if identity then
    let P := diagonal fun i => if thr < s i then 1 else 0
    ⟨C * diagonal fun i => if thr < s i then 1 / √(s i) else 1, P, P, rank s⟩
  else
    ⟨C, diagonal fun i => if thr < s i then s i else 0, diagonal fun i => if thr < s i then √(s i) else 0, rank s⟩

/-- Root mean square of the entries in the columns selected. -/
noncomputable def rms (M : Matrix (Fin n) (Fin k) ℝ) (sel : Finset (Fin k)) : ℝ :=
  √((∑ j ∈ sel, ∑ i, M i j ^ 2) / (n * sel.card))

/-- Columns before and from `r` on. -/
def lo (r : ℕ) : Finset (Fin k) := Finset.univ.filter fun j => (j : ℕ) < r
def hi (r : ℕ) : Finset (Fin k) := Finset.univ.filter fun j => ¬ (j : ℕ) < r

/-- Scaling (256-274). -/
noncomputable def scaled (X : Matrix (Fin n) (Fin k) ℝ) (o : Out k) : Out k :=
  let Xrp := X * o.C
  let r1 := rms Xrp (lo o.rank)
  let r2 := rms Xrp (hi o.rank)
  ⟨Matrix.of fun i j => if (j : ℕ) < o.rank then o.C i j / r1 else o.C i j / r2, (1 / r1 ^ 2) • o.Srp, (1 / r1) • o.Drp, o.rank⟩

/-- `reparam(X, S, cov, option=1, identity, scale)`; for options 2 and 3 `X` holds some of the rows (151-179). -/
noncomputable def reparam (eigh : Matrix (Fin k) (Fin k) ℝ → (Fin k → ℝ) × Matrix (Fin k) (Fin k) ℝ) (X : Matrix (Fin n) (Fin k) ℝ)
    (R S : Matrix (Fin k) (Fin k) ℝ) (identity scale : Bool) : Out k :=
  let e := eigh (natB R S)
  let o := base R (flipS e) (flipU e) identity
  if scale then scaled X o else o

/-- Inverse from the singular value decomposition `A = u diag(Sig) vt` (terms.py 605-607). -/
noncomputable def svdInv (v : Matrix (Fin k) (Fin k) ℝ × (Fin k → ℝ) × Matrix (Fin k) (Fin k) ℝ) : Matrix (Fin k) (Fin k) ℝ :=
  v.2.2ᵀ * diagonal (fun i => 1 / v.2.1 i) * v.1ᵀ

/-- `sys.float_info.epsilon ** 0.7` (624). -/
noncomputable def eps7 : ℝ := (2⁻¹ ^ 52 : ℝ) ^ (0.7 : ℝ)

open Classical in
/-- Transformation of a marginal of a tensor smooth (terms.py 579-634). `A` is the basis at an even grid of as many points as there are
functions, after the constraint. `RP.rank` is not assigned. -/
noncomputable def tensorRp (svd : Matrix (Fin k) (Fin k) ℝ → Matrix (Fin k) (Fin k) ℝ × (Fin k → ℝ) × Matrix (Fin k) (Fin k) ℝ)
    (eigh : Matrix (Fin k) (Fin k) ℝ → (Fin k → ℝ) × Matrix (Fin k) (Fin k) ℝ) (A S : Matrix (Fin k) (Fin k) ℝ) : Out k :=
  let Ai := svdInv (svd A)
  let Srp := Aiᵀ * S * Ai
  let e := eigh Srp
  ⟨Ai, Srp, e.2 * diagonal fun i => if eps7 < e.1 i then √(e.1 i) else 0, 0⟩

inductive Err where
  | index
  deriving DecidableEq

/-- Penalty matrix number `penid` of a univariate term with `rp=1` (terms.py 716-740): `RP[0]`, built from the first penalty (521-549). -/
def natPen (rp : Matrix (Fin k) (Fin k) ℝ → Out k) (S : ℕ → Matrix (Fin k) (Fin k) ℝ) (_penid : ℕ) : Matrix (Fin k) (Fin k) ℝ :=
  (rp (S 0)).Srp

/-- Marginal penalty number `penid` of a term with `rp=2` (742-764): `RP[penid]`, where there is one re-parameterisation for each variable
(424-428), built from penalty number `vi` (589-590). -/
def tensorPen (rp : ℕ → Matrix (Fin k) (Fin k) ℝ → Out k) (nv : ℕ) (S : ℕ → Matrix (Fin k) (Fin k) ℝ) (penid : ℕ) :
    Except Err (Matrix (Fin k) (Fin k) ℝ) :=
  if penid < nv then .ok (rp penid (S penid)).Srp else .error .index

/-- Matrix of a marginal with constraint `Z` and re-parameterisation `C`, not of a `te` term (terms.py 1227-1263, QR constraint). -/
def marginal {N k₀ : ℕ} (B : Matrix (Fin N) (Fin k₀) ℝ) (Z : Matrix (Fin k₀) (Fin k) ℝ) (C : Matrix (Fin k) (Fin k) ℝ) :
    Matrix (Fin N) (Fin k) ℝ :=
  B * Z * C

section Te

variable {N k₁ k₂ : ℕ}

/-- Row-wise Kronecker product `TP_basis_calc`. -/
def rowKron (B₁ : Matrix (Fin N) (Fin k₁) ℝ) (B₂ : Matrix (Fin N) (Fin k₂) ℝ) : Matrix (Fin N) (Fin k₁ × Fin k₂) ℝ :=
  Matrix.of fun i j => B₁ i j.1 * B₂ i j.2

/-- Column sums `C` of the tensor basis from which the constraint of a `te` term is found (formula.py 1647-1658): marginals as they are. -/
def conVec (B₁ : Matrix (Fin N) (Fin k₁) ℝ) (B₂ : Matrix (Fin N) (Fin k₂) ℝ) : Fin k₁ × Fin k₂ → ℝ :=
  fun j => ∑ i, rowKron B₁ B₂ i j

/-- Matrix of a re-parameterised `te` term with QR constraint `Z` (terms.py 1260-1272). -/
def teMat {q : Type} (B₁ : Matrix (Fin N) (Fin k₁) ℝ) (B₂ : Matrix (Fin N) (Fin k₂) ℝ) (C₁ : Matrix (Fin k₁) (Fin k₁) ℝ)
    (C₂ : Matrix (Fin k₂) (Fin k₂) ℝ) (Z : Matrix (Fin k₁ × Fin k₂) q ℝ) : Matrix (Fin N) q ℝ :=
  rowKron (B₁ * C₁) (B₂ * C₂) * Z

end Te

end Verif.NatPar
