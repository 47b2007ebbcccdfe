import Verif.MvnModel
import Verif.Fl
import Mathlib.Data.Fin.Tuple.Sort
import Mathlib.Algebra.Order.Floor.Semiring
import Mathlib.Data.Finset.Lattice.Fold

/-!
# Predictions with intervals (properties C83 and C84)

Model of `GSMM.get_pars`, `GSMM.sample_post`, `GSMM.predict`, `GSMM.predict_diff` (src/mssm/models.py 262-314,
1232-1317, 1319-1480, 1482-1592; inherited by `GAMMLSS` and `GAMM`) and `adjust_CI` (src/mssm/src/python/utils.py
1541-1639).

The model matrix `predi_mat` of the new data (`build_sparse_matrix_from_formula`, modelled in `MmatModel.lean`) and the
quantile function `ppf` of the standard normal distribution are inputs. Exact arithmetic.
-/

namespace Verif.Predict

open Matrix Finset

/-- The loop over `coef_i` turning the numbers of coefficients into split positions, in place (models.py 1071-1073,
2068-2070). With one formula there is at most one position and nothing to add. -/
def cumLoop (l : List ℕ) : List ℕ :=
  (List.range (l.length - 1)).foldl (fun l i => l.set (i + 1) (l.getD (i + 1) 0 + l.getD i 0)) l

/-- `coef_split_idx` from the numbers of coefficients of the formulas (and of the extra coefficients) (models.py
1047-1054, 1069-1073; 2057-2070). -/
def splitIdx (nCoef : List ℕ) : List ℕ := cumLoop nCoef.dropLast

/-- What is read from a fitted model: the coefficients, the root `lvi` with `lvi.T @ lvi` proportional to the covariance,
the scale, the number of formulas, whether there are extra coefficients, and `coef_split_idx`. -/
structure Fit where
  p : ℕ
  q : ℕ
  coef : ℕ → ℝ
  lvi : Fin q → ℕ → ℝ
  scale : ℝ
  nform : ℕ
  extra : Bool
  split : List ℕ

/-- First position and end of piece `par` of `np.split(np.arange(p), split)`; the first piece starts at 0, the last ends
at `p`. `none`: there is no such piece. -/
def piece (M : Fit) (par : ℕ) : Option (ℕ × ℕ) :=
  if par ≤ M.split.length then
    some (if par = 0 then 0 else M.split.getD (par - 1) 0, if par < M.split.length then M.split.getD par 0 else M.p)
  else none

/-- Coefficients belonging to `par` (models.py 1296-1305, 1412-1421, 1567-1576). -/
def block (M : Fit) (par : ℕ) : Option (ℕ × ℕ) :=
  if 1 < M.nform ∨ M.extra = true then piece M par else some (0, M.p)

/-- `coef` of the block starting at `s`. -/
def bcoef (M : Fit) (s k : ℕ) : Fin k → ℝ := fun j => M.coef (s + j)

/-- `self.lvi[:, split_idx]`. -/
def blvi (M : Fit) (s k : ℕ) : Matrix (Fin M.q) (Fin k) ℝ := Matrix.of fun l j => M.lvi l (s + j)

/-- `get_pars` (models.py 285-314). -/
def getPars (M : Fit) (par : ℕ) : Option (List ℝ) :=
  if M.nform + (if M.extra then 1 else 0) ≤ par then none
  else (block M par).map fun se => (List.range (se.2 - se.1)).map fun j => M.coef (se.1 + j)

/-- `sample_post` for one draw `z` of `q` standard normals (models.py 1286-1317) and all coefficients of the block; `k` is
the number of coefficients of the block. -/
noncomputable def samplePost (M : Fit) (par k : ℕ) (deviations : Bool) (z : Fin M.q → ℝ) : Option (Fin k → ℝ) :=
  if M.nform ≤ par then none
  else match block M par with
    | none => none
    | some (s, e) =>
      if e - s = k then
        some (Mvn.sampleLI (if deviations then none else some (bcoef M s k)) M.scale none (blvi M s k) z)
      else none

/-- `c`: the diagonal of `X lvi.T lvi scale X.T` (models.py 1468-1469, 1582-1583). -/
noncomputable def variance {n k : ℕ} (M : Fit) (s : ℕ) (X : Matrix (Fin n) (Fin k) ℝ) (r : Fin n) : ℝ :=
  (X * (blvi M s k)ᵀ * (M.scale • blvi M s k) * Xᵀ) r r

/-- `b` (models.py 1470, 1584). -/
noncomputable def band {n k : ℕ} (ppf : ℝ → ℝ) (M : Fit) (s : ℕ) (X : Matrix (Fin n) (Fin k) ℝ) (alpha : ℝ) (r : Fin n) : ℝ :=
  ppf (1 - alpha / 2) * √(variance M s X r)

/-- `predict` with `ci=True`, without `whole_interval` (models.py 1386-1393, 1412-1421, 1463-1478). `none` is an
exception: no such formula, or the number of columns differs from the number of coefficients. -/
noncomputable def predict {n k : ℕ} (ppf : ℝ → ℝ) (M : Fit) (par : ℕ) (X : Matrix (Fin n) (Fin k) ℝ) (alpha : ℝ) :
    Option ((Fin n → ℝ) × (Fin n → ℝ)) :=
  if M.nform ≤ par then none
  else match block M par with
    | none => none
    | some (s, e) => if e - s = k then some (X.mulVec (bcoef M s k), band ppf M s X alpha) else none

/-- `predict_diff`, without `whole_interval` (models.py 1552-1592); the matrices of both data sets come from `predict`
(1561-1562). -/
noncomputable def predictDiff {n k : ℕ} (ppf : ℝ → ℝ) (M : Fit) (par : ℕ) (X1 X2 : Matrix (Fin n) (Fin k) ℝ) (alpha : ℝ) :
    Option ((Fin n → ℝ) × (Fin n → ℝ)) :=
  if M.nform ≤ par then none
  else match block M par with
    | none => none
    | some (s, e) =>
      if e - s = k then some ((X1 - X2).mulVec (bcoef M s k), band ppf M s (X1 - X2) alpha) else none

/-! ### Whole-function intervals -/

/-- `use_post` (utils.py 1606-1612): all columns, or, when `use_terms` is given, those with a sum different from 0. -/
noncomputable def usePost {n k : ℕ} (useTerms : Bool) (X : Matrix (Fin n) (Fin k) ℝ) : List (Fin k) :=
  open Classical in
  if useTerms then (List.finRange k).filter fun j => ∑ r, X r j ≠ 0 else List.finRange k

/-- Sampled deviations of the coefficients `use` (utils.py 1615; models.py 1309-1311). -/
noncomputable def post {k : ℕ} (M : Fit) (s : ℕ) (use : List (Fin k)) (z : Fin M.q → ℝ) : Fin use.length → ℝ :=
  Mvn.sampleUse use.get none M.scale none (blvi M s k) z

/-- `fpost` (utils.py 1621-1624) for one sample. -/
noncomputable def fpost {n k : ℕ} (M : Fit) (s : ℕ) (X : Matrix (Fin n) (Fin k) ℝ) (useTerms : Bool) (z : Fin M.q → ℝ)
    (r : Fin n) : ℝ :=
  |∑ i, X r ((usePost useTerms X).get i) * post M s (usePost useTerms X) z i|

/-- `np.maximum` on floats: `nan` propagates. -/
noncomputable def flMax : Fl → Fl → Fl
  | .nan, _ => .nan
  | _, .nan => .nan
  | .fin a, .fin b => .fin (max a b)
  | .pinf, _ => .pinf
  | _, .pinf => .pinf
  | .ninf, x => x
  | x, .ninf => x

/-- `np.max` over the rows (the first row exists, `np.max` of no elements raises). -/
noncomputable def rowMax : {n : ℕ} → (Fin (n + 1) → Fl) → Fl
  | 0, f => f 0
  | _ + 1, f => flMax (f 0) (rowMax fun r => f r.succ)

/-- `np.quantile(v, q)`, default (linear) method, for finite values: virtual index `(n-1) q` between two order
statistics. -/
noncomputable def quantile {n : ℕ} (v : Fin (n + 1) → ℝ) (q : ℝ) : ℝ :=
  let lo := ⌊(n : ℝ) * q⌋₊
  let at' := fun i : ℕ => v (Tuple.sort v ⟨min i n, Nat.lt_succ_of_le (min_le_right _ _)⟩)
  at' lo + ((n : ℝ) * q - lo) * (at' (lo + 1) - at' lo)

/-- `np.quantile` on floats: `nan` if a value is `nan`. The interpolation of infinite values, `qinf`, is left open. -/
noncomputable def flQuantile {n : ℕ} (qinf : (Fin (n + 1) → Fl) → ℝ → Fl) (v : Fin (n + 1) → Fl) (q : ℝ) : Fl :=
  open Classical in
  if ∃ s, v s = .nan then .nan
  else if ∀ s, (v s).IsFin then .fin (quantile (fun s => (v s).val) q)
  else qinf v q

/-- `bmadq` (utils.py 1627-1634): `n + 1` samples with draws `zs`, `m + 1` rows. -/
noncomputable def bmadq {n m k : ℕ} (qinf : (Fin (n + 1) → Fl) → ℝ → Fl) (M : Fit) (s : ℕ) (X : Matrix (Fin (m + 1)) (Fin k) ℝ)
    (useTerms : Bool) (b : Fin (m + 1) → ℝ) (alpha : ℝ) (zs : Fin (n + 1) → Fin M.q → ℝ) : Fl :=
  flQuantile qinf (fun i => rowMax fun r => Fl.fin (fpost M s X useTerms (zs i) r) / Fl.fin (b r)) (1 - alpha)

/-- `adjust_CI` (utils.py 1606-1639). -/
noncomputable def adjust {n m k : ℕ} (qinf : (Fin (n + 1) → Fl) → ℝ → Fl) (M : Fit) (s : ℕ) (X : Matrix (Fin (m + 1)) (Fin k) ℝ)
    (useTerms : Bool) (b : Fin (m + 1) → ℝ) (alpha : ℝ) (zs : Fin (n + 1) → Fin M.q → ℝ) (r : Fin (m + 1)) : Fl :=
  Fl.fin (b r) * bmadq qinf M s X useTerms b alpha zs

/-- `predict` with `whole_interval=True` (models.py 1475-1478). -/
noncomputable def predictWhole {n m k : ℕ} (ppf : ℝ → ℝ) (qinf : (Fin (n + 1) → Fl) → ℝ → Fl) (M : Fit) (par : ℕ)
    (X : Matrix (Fin (m + 1)) (Fin k) ℝ) (useTerms : Bool) (alpha : ℝ) (zs : Fin (n + 1) → Fin M.q → ℝ) :
    Option ((Fin (m + 1) → ℝ) × (Fin (m + 1) → Fl)) :=
  if M.nform ≤ par then none
  else match block M par with
    | none => none
    | some (s, e) =>
      if e - s = k then
        some (X.mulVec (bcoef M s k), adjust qinf M s X useTerms (band ppf M s X alpha) alpha zs)
      else none

end Verif.Predict
