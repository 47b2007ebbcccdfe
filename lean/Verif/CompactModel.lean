import Mathlib.Data.Matrix.Mul
import Mathlib.Data.Matrix.Block
import Mathlib.Data.Real.Basic
import Mathlib.LinearAlgebra.Matrix.NonsingularInverse
import Mathlib.Analysis.SpecialFunctions.Pow.Real

/-!
# Compact quasi-Newton approximations (property C40)

Model of src/mssm/src/python/compact_rep.py and of the storage of update vectors in
src/mssm/src/python/gamm_solvers.py (`update_ys_qefs`, 6816-6915).
-/

namespace Verif.Compact

open Matrix

variable {n m p : ℕ}

/-- `compute_omega` (8-53), `"NoWr"`: from the most recent pair. -/
noncomputable def omegaNoWr (yk sk : Fin n → ℝ) : ℝ :=
  let o := (yk ⬝ᵥ yk) / (yk ⬝ᵥ sk)
  if o < 0 then 1 else o

/-- `omegai` (40). -/
noncomputable def omegai (sk yk : Fin n → ℝ) : ℝ := (sk ⬝ᵥ yk) / (sk ⬝ᵥ sk)

/-- `omega_min` after the loop (36-44). -/
noncomputable def omegaMinRaw (l : List ((Fin n → ℝ) × (Fin n → ℝ))) : ℝ :=
  l.foldl (fun om p => if omegai p.1 p.2 < om ∨ om ≤ 0 then omegai p.1 p.2 else om) 0

/-- `compute_omega` (8-53), `"mean"` and `"min"`; pairs `(s, y)`. -/
noncomputable def omegaLoop (useMin : Bool) (l : List ((Fin n → ℝ) × (Fin n → ℝ))) : ℝ :=
  let o := if useMin then omegaMinRaw l else (l.map fun p => omegai p.1 p.2).sum / l.length
  if o < 0 then 1 else o

/-- `S = s.T`, `Y = y.T` (107-108, 236-237). -/
def cols (s : Fin m → Fin n → ℝ) : Matrix (Fin n) (Fin m) ℝ := Matrix.of fun i k => s k i

/-- `R` (114-132, 243-261): upper triangular part of `Sᵀ Y`; below the first entry the diagonal is taken
from `rho`. -/
noncomputable def Rmat (s y : Fin m → Fin n → ℝ) (rho : Fin m → ℝ) : Matrix (Fin m) (Fin m) ℝ :=
  Matrix.of fun k l => if k < l then s k ⬝ᵥ y l else if k = l then (if k.1 = 0 then s k ⬝ᵥ y k else 1 / rho k) else 0

/-- `DK` (111-119, 240-248). -/
def DK (s y : Fin m → Fin n → ℝ) : Matrix (Fin m) (Fin m) ℝ := Matrix.diagonal fun k => s k ⬝ᵥ y k

/-- `R + R.T - DK - YTY` (138). -/
noncomputable def vMid (s y : Fin m → Fin n → ℝ) (rho : Fin m → ℝ) (V0 : Matrix (Fin n) (Fin n) ℝ) : Matrix (Fin m) (Fin m) ℝ :=
  Rmat s y rho + (Rmat s y rho)ᵀ - DK s y - (cols y)ᵀ * V0 * cols y

/-- `L` (264). -/
noncomputable def Lmat (s y : Fin m → Fin n → ℝ) (rho : Fin m → ℝ) : Matrix (Fin m) (Fin m) ℝ :=
  (cols s)ᵀ * cols y - Rmat s y rho

/-- `DK + L + L.T - STS` (267). -/
noncomputable def hMid (s y : Fin m → Fin n → ℝ) (rho : Fin m → ℝ) (H0 : Matrix (Fin n) (Fin n) ℝ) : Matrix (Fin m) (Fin m) ℝ :=
  DK s y + Lmat s y rho + (Lmat s y rho)ᵀ - (cols s)ᵀ * H0 * cols s

/-- Factors `t1`, `t2` (`t3` is the transpose of `t1`). -/
structure Fac (n : ℕ) (m : ℕ) where
  t1 : Matrix (Fin n) (Fin m) ℝ
  t2 : Matrix (Fin m) (Fin m) ℝ

/-- `H0 + t1 @ t2 @ t3` (176, 310). -/
def Fac.val (f : Fac n m) (H0 : Matrix (Fin n) (Fin n) ℝ) : Matrix (Fin n) (Fin n) ℝ := H0 + f.t1 * f.t2 * f.t1ᵀ

open Classical in
/-- `scp.linalg.inv`: raises for a singular matrix. -/
noncomputable def inv? (M : Matrix (Fin m) (Fin m) ℝ) : Option (Matrix (Fin m) (Fin m) ℝ) :=
  if IsUnit M.det then some M⁻¹ else none

/-- `computeVSR1` with `make_psd=False` (56-179); without stored pairs `s[0]` (112) raises. -/
noncomputable def vsr1 (s y : Fin m → Fin n → ℝ) (rho : Fin m → ℝ) (V0 : Matrix (Fin n) (Fin n) ℝ) : Option (Fac n m) :=
  if m = 0 then none else (inv? (vMid s y rho V0)).map fun t2 => ⟨cols s - V0 * cols y, t2⟩

/-- `computeHSR1` with `make_psd=False` (182-313); without stored pairs `s[0]` (241) raises. -/
noncomputable def hsr1 (s y : Fin m → Fin n → ℝ) (rho : Fin m → ℝ) (H0 : Matrix (Fin n) (Fin n) ℝ) : Option (Fac n m) :=
  if m = 0 then none else (inv? (hMid s y rho H0)).map fun t2 => ⟨cols y - H0 * cols s, t2⟩

/-- Results of `qr(t1, mode="economic")` and of `eigh(R @ t2 @ R.T)` (275-279). -/
structure Dec (n p m : ℕ) where
  Q : Matrix (Fin n) (Fin p) ℝ
  R : Matrix (Fin p) (Fin m) ℝ
  ev : Fin p → ℝ
  P : Matrix (Fin p) (Fin p) ℝ

/-- `fix_idx` (153, 282). -/
def fix (omega : ℝ) (d : Dec n p m) (i : Fin p) : Prop := d.ev i + omega ≤ 0

open Classical in
/-- `ev[fix_idx] = -1 * omega` (157, 286). -/
noncomputable def clip (omega : ℝ) (d : Dec n p m) (i : Fin p) : ℝ := if fix omega d i then -omega else d.ev i

open Classical in
/-- `ev[fix_idx] += eps * np.max(ev + omega)` (289-291); `mx` is the maximum. -/
noncomputable def clipPd (eps omega mx : ℝ) (d : Dec n p m) (i : Fin p) : ℝ :=
  if fix omega d i then clip omega d i + eps * mx else clip omega d i

/-- Eigenvalues after the shift; `none`: `make_pd` not asked for. -/
noncomputable def newEv (omega : ℝ) (d : Dec n p m) : Option (ℝ × ℝ) → Fin p → ℝ
  | none => clip omega d
  | some (eps, mx) => clipPd eps omega mx d

open Classical in
/-- The approximation with `make_psd=True` (144-177, 273-311). -/
noncomputable def psdVal (omega : ℝ) (H0 : Matrix (Fin n) (Fin n) ℝ) (f : Fac n m) (d : Dec n p m) (pd : Option (ℝ × ℝ)) :
    Matrix (Fin n) (Fin n) ℝ :=
  if ∃ i, fix omega d i then
    H0 + (d.Q * d.P) * Matrix.diagonal (newEv omega d pd) * (d.Pᵀ * d.Qᵀ)
  else f.val H0

/-! ## Mixed finite differences and quasi-Newton (`computeSH`) -/

section sh

variable {t f a : ℕ}

/-- Result of `scp.linalg.eigh(onHBB)` (gamm_solvers.py 7244). -/
structure Eig (f : ℕ) where
  U : Matrix (Fin f) (Fin f) ℝ
  ev : Fin f → ℝ

/-- Eigenvalues kept by `makepdd_fd2llk` (gamm_solvers.py 7246-7256); `thresh` as in 7249. -/
noncomputable def pdEv (mkPsd mkPd : Bool) (thresh : ℝ) (e : Eig f) (i : Fin f) : ℝ :=
  if mkPd && mkPsd then (if e.ev i ≤ thresh then thresh else e.ev i)
  else if mkPsd then (if e.ev i ≤ 0 then 0 else e.ev i) else e.ev i

/-- `onHBB` (7260). -/
noncomputable def pdBB (mkPsd mkPd : Bool) (thresh : ℝ) (e : Eig f) : Matrix (Fin f) (Fin f) ℝ :=
  e.U * Matrix.diagonal (pdEv mkPsd mkPd thresh e) * e.Uᵀ

/-- `IonHBB` (7251-7261): zero where the eigenvalue is zero. -/
noncomputable def pdInv (mkPsd mkPd : Bool) (thresh : ℝ) (e : Eig f) : Matrix (Fin f) (Fin f) ℝ :=
  e.U * Matrix.diagonal (fun i => if mkPd && mkPsd then 1 / pdEv mkPsd mkPd thresh e i
    else if pdEv mkPsd mkPd thresh e i ≠ 0 then 1 / pdEv mkPsd mkPd thresh e i else 0) * e.Uᵀ

/-- `onHBb` (7241, 7263-7265). -/
noncomputable def pdBb (mkPsd mkPd : Bool) (thresh damp : ℝ) (e : Eig f) (B : Matrix (Fin f) (Fin a) ℝ) : Matrix (Fin f) (Fin a) ℝ :=
  if !mkPd && mkPsd then pdBB mkPsd mkPd thresh e * pdInv mkPsd mkPd thresh e * (damp • B) else damp • B

/-- `P1` (516-522). -/
def P1 (tcols : Fin f ⊕ Fin a → Fin t) : Matrix (Fin t) (Fin f ⊕ Fin a) ℝ :=
  Matrix.of fun i j => if tcols j = i then 1 else 0

/-- `P2` (600-606). -/
def P2 (tcols : Fin f ⊕ Fin a → Fin t) : Matrix (Fin t) (Fin a) ℝ :=
  Matrix.of fun i j => if tcols (Sum.inr j) = i then 1 else 0

/-- `onHfd` (526). -/
def onHfd (tcols : Fin f ⊕ Fin a → Fin t) (nHfd : Matrix (Fin t) (Fin t) ℝ) : Matrix (Fin f ⊕ Fin a) (Fin f ⊕ Fin a) ℝ :=
  (P1 tcols)ᵀ * nHfd * P1 tcols

/-- `onHBB`, `onHBb` (531-532). -/
def BB (tcols : Fin f ⊕ Fin a → Fin t) (nHfd : Matrix (Fin t) (Fin t) ℝ) : Matrix (Fin f) (Fin f) ℝ :=
  (onHfd tcols nHfd).toBlocks₁₁

def Bb (tcols : Fin f ⊕ Fin a → Fin t) (nHfd : Matrix (Fin t) (Fin t) ℝ) : Matrix (Fin f) (Fin a) ℝ :=
  (onHfd tcols nHfd).toBlocks₁₂

/-- `SonHbbqa = H0 + qat1 @ qat2 @ qat3`, `onHbbqa` (583-584). -/
def onHbb (tcols : Fin f ⊕ Fin a → Fin t) (nHfd : Matrix (Fin t) (Fin t) ℝ) (I : Matrix (Fin f) (Fin f) ℝ)
    (H0 qa : Matrix (Fin a) (Fin a) ℝ) : Matrix (Fin a) (Fin a) ℝ :=
  (H0 + qa) + (Bb tcols nHfd)ᵀ * I * Bb tcols nHfd

/-- `computeSH(explicit=True)` (569-592); `P3` embeds in the lower right block. -/
def shExplicit (tcols : Fin f ⊕ Fin a → Fin t) (nHfd : Matrix (Fin t) (Fin t) ℝ) (I : Matrix (Fin f) (Fin f) ℝ)
    (H0 qa : Matrix (Fin a) (Fin a) ℝ) : Matrix (Fin t) (Fin t) ℝ :=
  P1 tcols * (onHfd tcols nHfd + Matrix.fromBlocks 0 0 0 (onHbb tcols nHfd I H0 qa)) * (P1 tcols)ᵀ

/-- `nH1` (609-613). -/
def nH1 (tcols : Fin f ⊕ Fin a → Fin t) (nHfd : Matrix (Fin t) (Fin t) ℝ) (H0 : Matrix (Fin a) (Fin a) ℝ) : Matrix (Fin t) (Fin t) ℝ :=
  P1 tcols * Matrix.fromBlocks (BB tcols nHfd) 0 0 H0 * (P1 tcols)ᵀ

/-- `nH2t1`, `nH2t3` (616-618). -/
def nH2t1 (tcols : Fin f ⊕ Fin a → Fin t) (nHfd : Matrix (Fin t) (Fin t) ℝ) : Matrix (Fin t) (Fin f) ℝ :=
  P2 tcols * (Bb tcols nHfd)ᵀ

def nH2t3 (tcols : Fin f ⊕ Fin a → Fin t) (nHfd : Matrix (Fin t) (Fin t) ℝ) : Matrix (Fin f) (Fin t) ℝ :=
  Bb tcols nHfd * (P2 tcols)ᵀ

/-- `nH3t1`, `nH3t3` (627-635). -/
def nH3t1 (tcols : Fin f ⊕ Fin a → Fin t) (nHfd : Matrix (Fin t) (Fin t) ℝ) : Matrix (Fin t) (Fin f ⊕ Fin f) ℝ :=
  P1 tcols * Matrix.fromBlocks 1 0 0 (Bb tcols nHfd)ᵀ

def nH3t3 (tcols : Fin f ⊕ Fin a → Fin t) (nHfd : Matrix (Fin t) (Fin t) ℝ) : Matrix (Fin f ⊕ Fin f) (Fin t) ℝ :=
  Matrix.fromBlocks 0 (Bb tcols nHfd) 1 0 * (P1 tcols)ᵀ

/-- Sum of the implicit pieces (643): `nH4 = P2 @ qat1 @ qat2 @ qat3 @ P2.T` (639-641). -/
def shImplicit (tcols : Fin f ⊕ Fin a → Fin t) (nHfd : Matrix (Fin t) (Fin t) ℝ) (I : Matrix (Fin f) (Fin f) ℝ)
    (H0 : Matrix (Fin a) (Fin a) ℝ) (damp : Bool) {q : ℕ} (qa1 : Matrix (Fin a) (Fin q) ℝ) (qa2 : Matrix (Fin q) (Fin q) ℝ)
    (qa3 : Matrix (Fin q) (Fin a) ℝ) : Matrix (Fin t) (Fin t) ℝ :=
  nH1 tcols nHfd H0 + nH2t1 tcols nHfd * I * nH2t3 tcols nHfd
    + (if damp then 0 else nH3t1 tcols nHfd * nH3t3 tcols nHfd)
    + (P2 tcols * qa1) * qa2 * (qa3 * (P2 tcols)ᵀ)

/-- `makepdd_fd2llk` (gamm_solvers.py 7178-7274): the first result.  `eigh` decomposes the finite difference
block; the remaining block of `nHfd` is kept. -/
noncomputable def makepdd (tcols : Fin f ⊕ Fin a → Fin t) (nHfd : Matrix (Fin t) (Fin t) ℝ) (mkPsd mkPd : Bool) (thresh damp : ℝ)
    (e : Eig f) : Matrix (Fin t) (Fin t) ℝ :=
  P1 tcols * Matrix.fromBlocks (pdBB mkPsd mkPd thresh e) (pdBb mkPsd mkPd thresh damp e (Bb tcols nHfd))
    (pdBb mkPsd mkPd thresh damp e (Bb tcols nHfd))ᵀ (onHfd tcols nHfd).toBlocks₂₂ * (P1 tcols)ᵀ

/-- Correction of a gradient difference for the finite difference part (7841-7842, 8139-8140). -/
def ycorr (tcols : Fin f ⊕ Fin a → Fin t) (nHfd : Matrix (Fin t) (Fin t) ℝ) (I : Matrix (Fin f) (Fin f) ℝ) (s y : Fin t → ℝ) :
    Fin t → ℝ :=
  y - nHfd *ᵥ s - (P2 tcols * (Bb tcols nHfd)ᵀ * I * Bb tcols nHfd * (P2 tcols)ᵀ) *ᵥ s

end sh

/-! ## Inverse (`computeSVPS`) -/

/-- Additive correction `t1 @ t2 @ t3`; `nH3` has the identity in the middle (620-635). -/
structure Corr (t : ℕ) where
  k : ℕ
  t1 : Matrix (Fin t) (Fin k) ℝ
  t2 : Matrix (Fin k) (Fin k) ℝ
  t3 : Matrix (Fin k) (Fin t) ℝ

def Corr.val {t : ℕ} (c : Corr t) : Matrix (Fin t) (Fin t) ℝ := c.t1 * c.t2 * c.t3

/-- Pre-conditioning `D @ t1`, `t3 @ D` (781-788). -/
def Corr.cond {t : ℕ} (D : Matrix (Fin t) (Fin t) ℝ) (c : Corr t) : Corr t := ⟨c.k, D * c.t1, c.t2, c.t3 * D⟩

/-- Result of `scp.linalg.svd`. -/
structure Svd (k : ℕ) where
  U : Matrix (Fin k) (Fin k) ℝ
  sv : Fin k → ℝ
  VT : Matrix (Fin k) (Fin k) ℝ

/-- `sv_invt2[sv_invt2 < eps] = eps` and `VT.T @ np.diag(1 / sv_invt2) @ U.T` (800-805). -/
noncomputable def svdInv {k : ℕ} (eps : ℝ) (d : Svd k) : Matrix (Fin k) (Fin k) ℝ :=
  d.VTᵀ * Matrix.diagonal (fun i => 1 / (if d.sv i < eps then eps else d.sv i)) * d.Uᵀ

/-- `invt2` (798, 825, 852). -/
def invt2 {t : ℕ} (V : Matrix (Fin t) (Fin t) ℝ) (c : Corr t) : Matrix (Fin c.k) (Fin c.k) ℝ :=
  1 + c.t2 * c.t3 * (V * c.t1)

/-- One application of the Woodbury identity (798-807, 821-836, 846-868) to the inverse `V` of everything
before the correction. -/
noncomputable def woodbury {t : ℕ} (svd : (k : ℕ) → Matrix (Fin k) (Fin k) ℝ → Svd k) (eps : ℝ)
    (V : Matrix (Fin t) (Fin t) ℝ) (c : Corr t) : Matrix (Fin t) (Fin t) ℝ :=
  V - (V * c.t1) * svdInv eps (svd c.k (invt2 V c)) * (c.t2 * (c.t3 * V))

/-- `nHdgr` and `D` (773-779). -/
noncomputable def precond {t : ℕ} (pre : Bool) (A : Matrix (Fin t) (Fin t) ℝ) : Matrix (Fin t) (Fin t) ℝ :=
  Matrix.diagonal fun i => if pre then |A i i| ^ (-(1 / 2 : ℝ)) else 1

/-- `computeSVPS(explicit=True)` (647-892); the corrections are `nH2`, `nH3` (unless fully dampened) and
`nH4`; `inv0` inverts `D @ (nH1 + S_emb) @ D` through its Cholesky factor (790-793). -/
noncomputable def svps {t : ℕ} (svd : (k : ℕ) → Matrix (Fin k) (Fin k) ℝ → Svd k) (eps : ℝ)
    (inv0 : Matrix (Fin t) (Fin t) ℝ → Matrix (Fin t) (Fin t) ℝ) (pre : Bool) (H1 S : Matrix (Fin t) (Fin t) ℝ)
    (cs : List (Corr t)) : Matrix (Fin t) (Fin t) ℝ :=
  let D := precond pre (H1 + S)
  D * ((cs.map (Corr.cond D)).foldl (woodbury svd eps) (inv0 (D * (H1 + S) * D))) * D

/-- `getImplicitV`, quasi-Newton for all coefficients (gamm_solvers.py 764-817): one correction, singular values
are not raised. -/
noncomputable def implicitV {t : ℕ} (svd : (k : ℕ) → Matrix (Fin k) (Fin k) ℝ → Svd k)
    (inv0 : Matrix (Fin t) (Fin t) ℝ → Matrix (Fin t) (Fin t) ℝ) (omega : ℝ) (S : Matrix (Fin t) (Fin t) ℝ) (c : Corr t) :
    Matrix (Fin t) (Fin t) ℝ :=
  woodbury svd 0 (inv0 (omega • (1 : Matrix (Fin t) (Fin t) ℝ) + S)) c

/-! ## Stored update vectors -/

/-- A stored pair of update vectors with its `rho`. -/
structure Pair (n : ℕ) where
  y : Fin n → ℝ
  s : Fin n → ℝ
  rho : ℝ

/-- `computeHSR1` for stored pairs and `H0 = omega I`. -/
noncomputable def hsr1List (l : List (Pair n)) (omega : ℝ) : Option (Fac n l.length) :=
  hsr1 (fun k : Fin l.length => (l.get k).s) (fun k => (l.get k).y) (fun k => (l.get k).rho) (omega • (1 : Matrix (Fin n) (Fin n) ℝ))

/-- `test_SR1` (6695-6759): with the candidate appended, does `computeHSR1` raise?  The deletions after the
test (6756-6758) act on local copies. -/
def testFails (st : List (Pair n)) (c : Pair n) : Prop :=
  hsr1List (st ++ [c]) (omegaNoWr c.y c.s) = none

/-- The candidate (6874-6880). -/
noncomputable def cand (grad next step : Fin n → ℝ) (alpha : ℝ) : Pair n :=
  let yk := (-1 : ℝ) • next - (-1 : ℝ) • grad
  let sk := alpha • step
  ⟨yk, sk, 1 / (yk ⬝ᵥ sk)⟩

open Classical in
/-- `update_ys_qefs` (6816-6915) with `yk=None`: the stored pairs, oldest first, and `skip`.  `rhok` is nan or
infinite exactly when the inner product is zero (exact arithmetic). -/
noncomputable def updateYs (maxcor : ℕ) (grad next step : Fin n → ℝ) (alpha : ℝ) (skip : Bool) (st : List (Pair n)) :
    List (Pair n) × Bool :=
  let c := cand grad next step alpha
  let skip1 : Bool := skip || decide (c.y ⬝ᵥ c.s = 0)
  let skip2 : Bool := skip1 || decide (testFails st c)
  if skip2 then (st, true)
  else
    let l := st ++ [c]
    (if l.length > maxcor then l.tail else l, false)

end Verif.Compact
