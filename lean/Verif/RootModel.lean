import Verif.EmbedModel
import Mathlib.Analysis.SpecialFunctions.Pow.Real
import Mathlib.Analysis.SpecialFunctions.Sqrt

/-!
# Root of the total penalty and fits by QR decomposition (property C109)

Model of the root returned by `compute_S_emb_pinv_det` (src/mssm/src/python/gamm_solvers.py 185-413, the lines under `root`), of `solve_coef_pqr2`
(src/mssm/src/cpp/eigen_solvers.cpp 631-718, called by `cpp_solve_coef_pqr`, matrix_solvers.py 293-325), of the branch of `update_coef` (gamm_solvers.py 1294-1332) that calls
it (`method="QR"`, the default of `GAMM.fit`), and of the factor returned by `update_coef_and_scale` (1492-1507, the same at 2340-2354).

External: `scp.linalg.eigh` and Eigen's orderings and `SparseQR` (specified where they are used).  Exact real arithmetic.  `S_emb` and the blocks are those of `EmbedModel`.
-/

namespace Verif.Root

open Verif.Pen

/-! ### Root of the total penalty -/

/-- A block with its entry of `DJs`: the embedded root times the root of the smoothing parameter, `none` once a second penalty was added (245, 265). -/
structure RBlk where
  blk : Blk
  dj : Option Arr

/-- One step of the loop at 233-269 with `DJs`. -/
noncomputable def collectStepR (st : Option (List RBlk × ℕ)) (p : LTerm) : Option (List RBlk × ℕ) :=
  st.bind fun st =>
    if st.1 = [] ∨ p.start > st.2 then
      some (st.1 ++ [⟨⟨fun i j => p.SJ i j * p.lam, p.k, 1, p.rep, p.start⟩, some fun i j => p.Demb i j * Real.sqrt p.lam⟩], p.start)
    else
      match (List.range st.1.length).filter fun i => (st.1.map (·.blk.start)).getD i 0 = p.start with
      | [i] => (st.1[i]?).bind fun b =>
          if b.blk.rep = p.rep then
            some (st.1.set i ⟨{ b.blk with S := fun a c => b.blk.S a c + p.SJ a c * p.lam, terms := b.blk.terms + 1 }, none⟩, st.2)
          else none
      | _ => none

/-- The blocks. -/
noncomputable def collectR (ps : List LTerm) : Option (List RBlk) := (ps.foldl collectStepR (some ([], 0))).map (·.1)

/-- `sys.float_info.epsilon**0.7` (343). -/
noncomputable def rootTol : ℝ := ((2 : ℝ) ^ (-52 : ℤ)) ^ (7 / 10 : ℝ)

open Classical in
/-- `D_root` (340-345) as a coordinate list: `eU` are eigenvalues and eigenvectors (columns) of a matrix of dimension `k`. -/
noncomputable def dRoot (k : ℕ) (eU : (ℕ → ℝ) × Arr) : Trip :=
  (List.range k).flatMap fun i => (List.range k).map fun j => (i, j, eU.2 i j * (if eU.1 j > rootTol then (eU.1 j) ^ (1 / 2 : ℝ) else 0))

/-- Sum of optional arrays (292-295). -/
def addSingle (S : Option Arr) (D : Option Arr) : Option Arr :=
  match S with
  | none => D
  | some S => some fun i j => S i j + (D.elim 0 fun D => D i j)

/-- State of the loop at 285-372: coordinate lists of `S_root`, `cIndexPinv`, `S_root_singles`. -/
structure RSt where
  trips : Trip
  cur : ℕ
  singles : Option Arr

/-- Body of the loop at 285-372, the lines for the root; `eigh` gives eigenvalues and eigenvectors of the summed penalty of a block. -/
noncomputable def rootStep (eigh : Blk → (ℕ → ℝ) × Arr) (st : RSt) (b : RBlk) : RSt :=
  if b.blk.terms = 1 then { st with singles := addSingle st.singles b.dj, cur := st.cur + b.blk.k * b.blk.rep }
  else (List.range b.blk.rep).foldl
    (fun (st : RSt) _ => { st with trips := st.trips ++ shiftT st.cur (dRoot b.blk.k (eigh b.blk)), cur := st.cur + b.blk.k }) st

/-- `S_root` (276-282, 285-384). -/
noncomputable def totalRoot (eigh : Blk → (ℕ → ℝ) × Arr) (bs : List RBlk) : Arr :=
  match bs with
  | [] => fun _ _ => 0
  | b :: _ =>
    let st := bs.foldl (rootStep eigh) ⟨[], b.blk.start, none⟩
    fun i j => coo st.trips i j + st.singles.elim 0 fun S => S i j

/-! ### Coefficients -/

/-- Rows of `X` above rows of `E` (657-677). -/
def stack {N n : ℕ} (X : Fin N → Fin n → ℝ) (E : Fin n → Fin n → ℝ) : Fin (N + n) → Fin n → ℝ := Fin.addCases X E

/-- What `SparseQR` returns: orthogonal factor, triangular factor, column permutation (column `j` of `A P` is column `piv j` of `A`), rank. -/
structure Qr (M n : ℕ) where
  Q : Fin M → Fin M → ℝ
  R : Fin M → Fin n → ℝ
  piv : Equiv.Perm (Fin n)
  rank : ℕ

/-- Specification of `SparseQR` (690-700): `A P = Q R`, `Q` orthogonal, `R` zero below the diagonal, its first `rank` diagonal entries are not zero, `rank ≤ n`.  What the rank decision treats as zero is the rest of
`R` below row `rank`: nothing is assumed about its size here. -/
structure Qr.Of {M n : ℕ} (A : Fin M → Fin n → ℝ) (q : Qr M n) : Prop where
  orth : ∀ i j, ∑ l, q.Q l i * q.Q l j = if i = j then 1 else 0
  fact : ∀ i j, A i (q.piv j) = ∑ l, q.Q i l * q.R l j
  upper : ∀ i j, j.val < i.val → q.R i j = 0
  rank_le : q.rank ≤ n
  rank_rows : q.rank ≤ M
  diag : ∀ (i : Fin M) (j : Fin n), i.val = j.val → j.val < q.rank → q.R i j ≠ 0

/-- `solve_coef_pqr2` (631-718): leading block of `R` as a function of row and column, both permutations, the solution of the triangular system, rank.  `none`: `info() != Success`, code 2. -/
structure Sol (n : ℕ) where
  R : ℕ → ℕ → ℝ
  p1 : Equiv.Perm (Fin n)
  p2 : Equiv.Perm (Fin n)
  coef : ℕ → ℝ
  rank : ℕ

/-- Back substitution in an upper triangular system with `r` rows (713): `back R f r k` solves the rows `r - k, …, r - 1`. -/
noncomputable def back (R : ℕ → ℕ → ℝ) (f : ℕ → ℝ) (r : ℕ) : ℕ → ℕ → ℝ
  | 0 => fun _ => 0
  | k + 1 => fun i => if i = r - (k + 1) then (f i - ∑ j ∈ Finset.Ico (i + 1) r, R i j * back R f r k j) / R i i else back R f r k i

/-- `solve_coef_pqr2` with the results `amd` and `qr` of the external routines. -/
noncomputable def solvePqr {N n : ℕ} (amd : (Fin (N + n) → Fin n → ℝ) → Equiv.Perm (Fin n)) (qr : (Fin (N + n) → Fin n → ℝ) → Option (Qr (N + n) n))
    (y : Fin N → ℝ) (X : Fin N → Fin n → ℝ) (E : Fin n → Fin n → ℝ) : Option (Sol n) :=
  let RE := stack X E
  let p1 := amd RE
  match qr fun i j => RE i (p1 j) with
  | none => none
  | some q =>
    let yE : Fin (N + n) → ℝ := Fin.addCases y fun _ => 0
    let Qy : ℕ → ℝ := fun i => if h : i < N + n then ∑ l, q.Q l ⟨i, h⟩ * yE l else 0
    let R2 : ℕ → ℕ → ℝ := fun i j => if h : i < N + n ∧ j < n then q.R ⟨i, h.1⟩ ⟨j, h.2⟩ else 0
    some ⟨R2, p1, q.piv, back R2 Qy q.rank q.rank, q.rank⟩

/-- Results of `update_coef` (1294-1332): coefficients, `keep`, `drop`, `Pr`, `LP` (rows and columns below the rank). -/
structure Upd (n : ℕ) where
  coef : Fin n → ℝ
  keep : List (Fin n)
  drop : List (Fin n)
  Pr : List ℕ
  LP : ℕ → ℕ → ℝ
  rank : ℕ

/-- Pivoted position of a coefficient: `coef @ P` with `P = P2.T @ P1.T` (1302, 1312) takes entry `p` of the pivoted vector to coefficient `p1 (p2 p)`. -/
def posOf {n : ℕ} (s : Sol n) (j : Fin n) : Fin n := s.p2.symm (s.p1.symm j)

/-- Pivoted coefficients with `nan` (`none`) behind the rank (1306-1309). -/
def pivoted {n : ℕ} (s : Sol n) (p : Fin n) : Option ℝ := if p.val < s.rank then some (s.coef p) else none

/-- `update_coef` from 1299 on.  With code 2 the coefficients have length `2 n` and the product at 1312 raises `ValueError`: `none`. -/
def unpivot {n : ℕ} (s : Option (Sol n)) : Option (Upd n) :=
  s.map fun s =>
    let c : Fin n → Option ℝ := fun j => pivoted s (posOf s j)
    let keep := (List.finRange n).filter fun j => (c j).isSome
    { coef := fun j => (c j).getD 0
      keep := keep
      drop := (List.finRange n).filter fun j => (c j).isNone
      Pr := keep.map fun j => (posOf s j).val
      LP := fun i j => s.R j i
      rank := s.rank }

/-- `update_coef` for `method="QR"`, without linear predictor. -/
noncomputable def updateCoef {N n : ℕ} (amd : (Fin (N + n) → Fin n → ℝ) → Equiv.Perm (Fin n)) (qr : (Fin (N + n) → Fin n → ℝ) → Option (Qr (N + n) n))
    (y : Fin N → ℝ) (X : Fin N → Fin n → ℝ) (S_root : Fin n → Fin n → ℝ) : Option (Upd n) := unpivot (solvePqr amd qr y X fun i j => S_root j i)

/-- `L = P.T @ LP` (1492): row `c` is row `Pr[c]` of `LP`; then zero rows and columns for dropped coefficients (1498-1507). -/
def factor {n : ℕ} (u : Upd n) (i j : Fin n) : ℝ :=
  ((List.range u.rank).map fun a => ((List.range u.rank).map fun b =>
    if u.keep[a]? = some i ∧ u.keep[b]? = some j then u.LP (u.Pr.getD a 0) b else 0).sum).sum

end Verif.Root
