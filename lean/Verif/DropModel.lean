import Mathlib.Data.Real.Basic
import Mathlib.Algebra.BigOperators.Group.Finset.Basic
import Mathlib.Data.List.Sort

/-!
# Dropping coefficients (property C34)

Model of `identify_drop` (4736-4929), `drop_terms_X` (4945-4964), `handle_drop_gammlss` (5078-5111)
and of putting coefficients back in `update_coef_gammlss` (5343, 5482)
(src/mssm/src/python/gamm_solvers.py).  Index bookkeeping; the decompositions are parameters.
-/

namespace Verif.Drop

/-- A model matrix: number of columns and entries by row and column. -/
structure Mat where
  w : ℕ
  a : ℕ → ℕ → ℝ

/-- `X[:, keep_X]` (4955). -/
def cols (X : Mat) (kx : List ℕ) : Mat := ⟨kx.length, fun r c => X.a r (kx.getD c 0)⟩

/-- `keep_X` (4952). -/
def keepX (keep : List ℕ) (start w : ℕ) : List ℕ :=
  (keep.filter fun cf => decide (start ≤ cf) && decide (cf < start + w)).map (· - start)

/-- Reduced model matrices (4949-4957). -/
def newXs (keep : List ℕ) : List Mat → ℕ → List Mat
  | [], _ => []
  | X :: Xs, start => cols X (keepX keep start X.w) :: newXs keep Xs (start + X.w)

/-- `split_idx` (4959-4962): `i` the position of the first matrix of the list, `n` their number. -/
def splitIdx (n : ℕ) : List Mat → ℕ → List ℕ → List ℕ
  | [], _, acc => acc
  | X :: Xs, i, acc =>
    splitIdx n Xs (i + 1) (if i = 0 then acc ++ [X.w]
      else if i < n - 1 then acc ++ [X.w + acc.getLastD 0] else acc)

/-- `drop_terms_X` (4945-4964). -/
def dropTerms (Xs : List Mat) (keep : List ℕ) : List Mat × List ℕ :=
  (newXs keep Xs 0, splitIdx Xs.length (newXs keep Xs 0) 0 [])

/-- `np.split(l, idx)`: the pieces between consecutive positions. -/
def npSplit {α : Type} (l : List α) : ℕ → List ℕ → List (List α)
  | a, [] => [l.drop a]
  | a, b :: bs => (l.drop a).take (b - a) :: npSplit l b bs

/-- `coef[keep]` (5079). -/
def gather (coef : List ℝ) (keep : List ℕ) : List ℝ := keep.map (coef.getD · 0)

/-- `full_coef = np.zeros_like(coef); full_coef[keep] = coef` (5343, 5452, 5482). -/
def scatter (n : ℕ) (keep : List ℕ) (v : List ℝ) : List ℝ :=
  (List.zip keep v).foldl (fun full x => full.set x.1 x.2) (List.replicate n 0)

/-- `X @ coef` (5091), one row. -/
def etaRow (X : Mat) (coef : List ℝ) (r : ℕ) : ℝ := ∑ c ∈ Finset.range X.w, X.a r c * coef.getD c 0

/-- `coef.T @ S @ coef`. -/
def quad (n : ℕ) (S : ℕ → ℕ → ℝ) (v : List ℝ) : ℝ :=
  ∑ i ∈ Finset.range n, ∑ j ∈ Finset.range n, v.getD i 0 * S i j * v.getD j 0

/-- `S_emb[keep, :][:, keep]` (5086-5087). -/
def subS (S : ℕ → ℕ → ℝ) (keep : List ℕ) : ℕ → ℕ → ℝ := fun i j => S (keep.getD i 0) (keep.getD j 0)

/-! ### Finding coefficients to drop -/

/-- `[cidx for cidx in range(H.shape[1]) if cidx not in drop]` (4808, 4903). -/
def complement (n : ℕ) (drop : List ℕ) : List ℕ := (List.range n).filter fun i => !drop.contains i

/-- Method `QR` (4802-4813): `Pr` the pivoted column order. -/
def byQR (sort : List ℕ → List ℕ) (n : ℕ) (Pr : List ℕ) (rank : ℕ) : List ℕ × List ℕ :=
  let drop := if rank < n then Pr.drop rank else []
  let keep := if rank < n then complement n drop else List.range n
  (sort keep, sort drop)

/-- `np.argmax(np.abs(w))` (4901) for `w[keep] = wk`, zero elsewhere (4890-4898): position of the
first largest entry among `0, …, n-1`. -/
noncomputable def argmaxAbs (n : ℕ) (w : ℕ → ℝ) : ℕ :=
  (List.range n).foldl (fun best i => if |w best| < |w i| then i else best) 0

/-- `w` (4890-4898). -/
def spread (keep : List ℕ) (wk : List ℝ) : ℕ → ℝ := fun i =>
  match keep.idxOf? i with
  | none => 0
  | some j => wk.getD j 0

/-- The loop of Foster's algorithm (4845-4924), `fuel` passes: `vec` the approximate null vector of the
matrix restricted to `keep` (`none`: solver failed), `ok` whether that matrix passes the final check.
`none`: still running. -/
noncomputable def foster (n : ℕ) (vec : List ℕ → Option (List ℝ)) (ok : List ℕ → Bool) :
    ℕ → List ℕ → Option (List ℕ)
  | 0, _ => none
  | fuel + 1, drop =>
    match vec (complement n drop) with
    | none => some drop
    | some wk =>
      let drop' := drop ++ [argmaxAbs n (spread (complement n drop) wk)]
      if ok (complement n drop') then some drop' else foster n vec ok fuel drop'

end Verif.Drop
