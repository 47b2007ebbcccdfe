import Mathlib.Data.Matrix.Mul
import Mathlib.Data.Matrix.Basic
import Mathlib.Data.Matrix.Block
import Mathlib.Data.Real.Basic
import Mathlib.LinearAlgebra.Matrix.Notation

/-!
# Re-parameterisation of one group of penalties (property C41)

Model of option 4 of `reparam` (src/mssm/src/python/repara.py 361-604): the penalties of one term, their
reduction to the range space, and the similarity transform that separates penalties of different size.

Matrices of the remaining block (`SJbar`, `Sk`, `U`; rows and columns from `K` on) are stored at their
position in the full `n × n` matrix instead of being cut out.  `eigh` is a parameter.
-/

namespace Verif.Repara

open Matrix

variable {n J : ℕ}

/-- Variables of the loop (404-411): `S` is `S_rep` (`none` before the first pass), `Q` is `Q_rep`,
`rep` is `S_Jrep`, `bar` is `SJbar`, `rem` is `rem_idx`. -/
structure St (n J : ℕ) where
  K : ℕ
  S : Option (Matrix (Fin n) (Fin n) ℝ)
  Q : Matrix (Fin n) (Fin n) ℝ
  rep : Fin J → Matrix (Fin n) (Fin n) ℝ
  bar : Fin J → Matrix (Fin n) (Fin n) ℝ
  rem : List (Fin J)

/-- Before the loop (404-411). -/
def init (SJ : Fin J → Matrix (Fin n) (Fin n) ℝ) : St n J :=
  ⟨0, none, 1, SJ, SJ, List.finRange J⟩

/-- Result of `eigh` and `flip` (430-434): eigenvectors `U` of the remaining block (identity elsewhere),
eigenvalues `D` in decreasing order. -/
structure Eig (n : ℕ) where
  U : Matrix (Fin n) (Fin n) ℝ
  D : Fin n → ℝ

/-- `D > max(D) * eps` (437). -/
def big (eps : ℝ) (K : ℕ) (D : Fin n → ℝ) (i : Fin n) : Prop := ∀ k : Fin n, K ≤ k.1 → D k * eps < D i

open Classical in
/-- `r` (437). -/
noncomputable def rank (eps : ℝ) (K : ℕ) (D : Fin n → ℝ) : ℕ :=
  (Finset.univ.filter fun i : Fin n => K ≤ i.1 ∧ big eps K D i).card

/-- `Sk` (427). -/
def Sk (lam : Fin J → ℝ) (st : St n J) (am : Fin J) : Matrix (Fin n) (Fin n) ℝ := lam am • st.bar am

/-- `Sjk` (453-461): sum of the other remaining penalties. -/
def Sjk (lam : Fin J → ℝ) (st : St n J) (am : Fin J) : Matrix (Fin n) (Fin n) ℝ :=
  ((st.rem.filter fun j => j ≠ am).map fun j => lam j • st.bar j).sum

/-- `C` (471-482). -/
def blockC (lam : Fin J → ℝ) (st : St n J) (am : Fin J) (e : Eig n) (r : ℕ) : Matrix (Fin n) (Fin n) ℝ :=
  Matrix.of fun i j => (if i = j ∧ i.1 < st.K + r then e.D i else 0) + (e.Uᵀ * Sjk lam st am * e.U) i j

/-- `S_rep` (487-488, 515-525). -/
def newS (lam : Fin J → ℝ) (st : St n J) (am : Fin J) (e : Eig n) (r : ℕ) : Matrix (Fin n) (Fin n) ℝ :=
  match st.S with
  | none => blockC lam st am e r
  | some s => Matrix.of fun i j =>
    if i.1 < st.K then if j.1 < st.K then s i j else (s * e.U) i j
    else if j.1 < st.K then (s * e.U) j i else blockC lam st am e r i j

/-- `Ta` (489-491, 527-542): the columns of the kernel of `Sk` are zero. -/
def Ta (st : St n J) (e : Eig n) (r : ℕ) : Matrix (Fin n) (Fin n) ℝ :=
  Matrix.of fun i j => if j.1 < st.K + r then e.U i j else 0

/-- Rows and columns from `K` on. -/
def mask (K : ℕ) (M : Matrix (Fin n) (Fin n) ℝ) : Matrix (Fin n) (Fin n) ℝ :=
  Matrix.of fun i j => if K ≤ i.1 ∧ K ≤ j.1 then M i j else 0

/-- One transforming pass (452-587). -/
def transform (lam : Fin J → ℝ) (st : St n J) (am : Fin J) (e : Eig n) (r : ℕ) : St n J where
  K := st.K + r
  S := some (newS lam st am e r)
  Q := st.Q * e.U
  rep := fun j => if j = am then (Ta st e r)ᵀ * st.rep j * Ta st e r
    else if j ∈ st.rem then e.Uᵀ * st.rep j * e.U else st.rep j
  bar := fun j => if j ∈ st.rem ∧ j ≠ am then mask (st.K + r) (e.Uᵀ * st.bar j * e.U) else st.bar j
  rem := st.rem.filter fun j => j ≠ am

inductive Res (n J : ℕ) where
  | done (st : St n J)
  | error
  | running

/-- The loop (413-587): `pick` is the argmax of the norms (415-423). -/
noncomputable def loop (eig : ℕ → Matrix (Fin n) (Fin n) ℝ → Eig n) (eps : ℝ) (lam : Fin J → ℝ)
    (pick : St n J → Fin J) : ℕ → St n J → Res n J
  | 0, _ => .running
  | fuel + 1, st =>
    let am := pick st
    let e := eig st.K (Sk lam st am)
    let r := rank eps st.K e.D
    if r = n - st.K then .done st
    else if (st.rem.filter fun j => j ≠ am) = [] then .error
    else loop eig eps lam pick fuel (transform lam st am e r)

/-- `S_rep` after the loop (593-597): if the first pass left the loop, the first penalty alone. -/
def finalS (lam : Fin J → ℝ) (j0 : Fin J) (st : St n J) : Matrix (Fin n) (Fin n) ℝ :=
  match st.S with
  | none => lam j0 • st.bar j0
  | some s => s

/-- Outcome for a whole group: the transformed total penalty (padded with zeros, 675-677), the
transformed penalties (642-645) and the transformation. -/
structure Out (p : Type) (n m J : ℕ) where
  S : Matrix (Fin n ⊕ Fin m) (Fin n ⊕ Fin m) ℝ
  rep : Fin J → Matrix (Fin n ⊕ Fin m) (Fin n ⊕ Fin m) ℝ
  Q : Matrix p (Fin n ⊕ Fin m) ℝ

/-- Pad with zeros. -/
def pad {m : ℕ} (M : Matrix (Fin n) (Fin n) ℝ) : Matrix (Fin n ⊕ Fin m) (Fin n ⊕ Fin m) ℝ :=
  Matrix.fromBlocks M 0 0 0

/-- `SJbar` (384-391): `U0` holds the eigenvectors of the balanced penalty, those of the range space
(`Ur`) first. -/
def bar0 {p : Type} [Fintype p] {m : ℕ} (U0 : Matrix p (Fin n ⊕ Fin m) ℝ) (S : Fin J → Matrix p p ℝ) (j : Fin J) :
    Matrix (Fin n) (Fin n) ℝ :=
  (U0.submatrix id Sum.inl)ᵀ * S j * U0.submatrix id Sum.inl

/-- The group (361-604).  `none` is a `ValueError`.  With a single penalty no loop is run (393-402).  If
the first pass leaves the loop, `Q_rep` is the `r × r` identity (595), which cannot be multiplied with the
square `Q_rep0` unless the kernel is empty (600).  `m = 0`: `Q_rep0` is `None` and `U0` plays no role; this
case is entered with `U0` the identity. -/
noncomputable def group {p : Type} [Fintype p] {m : ℕ} (eig : ℕ → Matrix (Fin n) (Fin n) ℝ → Eig n) (eps : ℝ)
    (lam : Fin J → ℝ) (pick : St n J → Fin J) (j0 : Fin J) (U0 : Matrix p (Fin n ⊕ Fin m) ℝ)
    (S : Fin J → Matrix p p ℝ) : Option (Out p n m J) :=
  if J = 1 then some ⟨pad (lam j0 • bar0 U0 S j0), fun j => pad (bar0 U0 S j), U0⟩
  else match loop eig eps lam pick J (init (bar0 U0 S)) with
    | .done st =>
      if st.S = none ∧ m ≠ 0 then none
      else some ⟨pad (finalS lam j0 st), fun j => pad (st.rep j), U0 * Matrix.fromBlocks st.Q 0 0 1⟩
    | _ => none

end Verif.Repara
