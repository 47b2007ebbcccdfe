import Mathlib.Data.Real.Basic
import Mathlib.Data.Nat.Sqrt
import Mathlib.Data.Finset.Card
import Mathlib.Data.List.SplitBy
import Mathlib.Algebra.BigOperators.Intervals
import Mathlib.Order.Interval.Finset.Nat

/-!
# Approximate derivatives for factor smooths (property C101)

Model of `Formula.__discretize` (src/mssm/src/python/formula.py 1056-1101), `__split_discretize` (1103-1194), `__cluster_discretize`
(1196-1406), and of the part of `compute_B` (src/mssm/src/python/matrix_solvers.py 739-813) that uses the clusters.

`scipy.cluster.vq.kmeans2` is a parameter: labels and loss of every run are arbitrary.  Real arithmetic.
-/

namespace Verif.Clus

/-! ## Binning of a covariate -/

/-- `np.linspace(a, b, k)`. -/
noncomputable def linspace (a b : ℝ) (k : ℕ) : List ℝ :=
  (List.range k).map fun i : ℕ => if k = 1 then a else a + (i : ℝ) * ((b - a) / ((k : ℝ) - 1))

/-- `np.digitize(x, edges)`: number of edges that are at most `x`. -/
noncomputable def digitize (edges : List ℝ) (x : ℝ) : ℕ := (edges.filter fun e => decide (e ≤ x)).length

/-- The bin of `x` for a variable with extreme values `a`, `b` that takes `u` different values (1084-1091). -/
noncomputable def bin (a b : ℝ) (u : ℕ) (x : ℝ) : ℕ := digitize (linspace a b (Nat.sqrt u)) x

/-! ## Rows, splits -/

/-- A row of the discretised data: number of its series (1123-1126, counted from zero in order of appearance), values of the
collected variables, codes of the factors in `split_by`. -/
structure Row where
  sid : ℕ
  vals : List ℝ
  facts : List ℕ

/-- Renumbering of the series of a sub-group (1146-1157): position among the series that occur. -/
def renumber (rows : List Row) : List Row :=
  rows.map fun r => { r with sid := ((rows.map Row.sid).toFinset.filter (· < r.sid)).card }

/-- `cov_flat[mask, cols]` (1176-1179): NumPy pairs the selected rows with the columns, which fails unless there is one column or as
many rows as columns. (A single row is also possible but fails when the result is used as a mask, 1185.) -/
def pairIndex (rows : List Row) (k : ℕ) : Option (List (List ℕ)) :=
  if k = 1 then some (rows.map fun r => [r.facts.getD 0 0])
  else if rows.length = k then some ((List.range k).map fun c => [(rows.map fun r => r.facts.getD c 0).getD c 0])
  else none

/-- Factor combination of every row (1166-1182), `k` factors; `none`: `IndexError`. -/
def keys (sub : Bool) (rows : List Row) (k : ℕ) : Option (List (List ℕ)) :=
  if sub then pairIndex rows k else some (rows.map Row.facts)

/-- `__split_discretize` (1159-1194): the rows of every factor combination. The order of the combinations does not matter in what
follows. -/
def split (sub : Bool) (rows : List Row) (k : ℕ) : Option (List (List Row)) :=
  let rows := if sub then renumber rows else rows
  if k = 0 then some [rows]
  else (keys sub rows k).map fun ks => ks.dedup.map fun key => ((rows.zip ks).filter fun p => p.2 = key).map Prod.fst

/-! ## Features of a series -/

/-- Entries of `stat`. -/
inductive Stat | none | n | nUnique
deriving DecidableEq

/-- `np.unique(..., return_inverse=True)` (1255): position of `x` among the different values. -/
noncomputable def place (rows : List Row) (v : ℕ) (x : ℝ) : ℕ := ((rows.map fun r => r.vals.getD v 0).toFinset.filter (· < x)).card

/-- Number of bins of variable `v` (1264-1274). -/
noncomputable def count (stat : ℕ → Stat) (rows : List Row) (v : ℕ) : ℕ :=
  if stat v = .n then 1 else (rows.map fun r => r.vals.getD v 0).toFinset.card

/-- What is added to the positions of variable `v` (1259-1260): the number of bins of the variable before it. -/
noncomputable def shift (stat : ℕ → Stat) (rows : List Row) (v : ℕ) : ℕ := if v = 0 then 0 else count stat rows (v - 1)

/-- Column that row `r` counts in for variable `v` (1255-1275). -/
noncomputable def column (stat : ℕ → Stat) (rows : List Row) (r : Row) (v : ℕ) : ℕ :=
  if stat v = .n then shift stat rows v else place rows v (r.vals.getD v 0) + shift stat rows v

/-- `clust[s, c]` (1286-1306): how often column `c` occurs in the rows of the series, over all `nv` variables. -/
noncomputable def raw (stat : ℕ → Stat) (nv : ℕ) (rows : List Row) (s c : ℕ) : ℕ :=
  ((rows.filter fun r => r.sid = s).map fun r => ((List.range nv).filter fun v => column stat rows r v = c).length).sum

/-- First column of variable `v` (1312, 1335). -/
noncomputable def start (stat : ℕ → Stat) (rows : List Row) (v : ℕ) : ℕ := ((List.range v).map (count stat rows)).sum

/-- The vector of a series after the optional collapsing step (1310-1337). -/
noncomputable def features (hasStat : Bool) (stat : ℕ → Stat) (nv : ℕ) (rows : List Row) (s : ℕ) : List ℝ :=
  if hasStat then
    (List.range nv).flatMap fun v =>
      let part := (List.range (count stat rows v)).map fun c => raw stat nv rows s (start stat rows v + c)
      if stat v = .nUnique then [((part.filter (0 < ·)).length : ℝ)] else part.map fun x : ℕ => (x : ℝ)
  else (List.range (start stat rows nv)).map fun c => (raw stat nv rows s c : ℝ)

/-- `normalize` (1341-1344): every column divided by the sum of its absolute values over the series `ids`. -/
noncomputable def normalized (F : ℕ → List ℝ) (ids : List ℕ) (s : ℕ) : List ℝ :=
  (F s).mapIdx fun c x =>
    let norm := (ids.map fun i => |(F i).getD c 0|).sum
    if norm = 0 then x else x / norm

/-! ## Clusters -/

/-- A cluster: its series (`sid_idx[clu]`), the representative and the weights. -/
structure Cluster where
  members : List ℕ
  rep : ℕ
  weights : List ℝ

/-- `np.argmax`: first position of the largest entry. -/
noncomputable def argmax : List ℝ → ℕ
  | [] => 0
  | [_] => 0
  | x :: y :: l => if ∀ z ∈ y :: l, z ≤ x then 0 else argmax (y :: l) + 1

/-- Largest entry. -/
noncomputable def top (l : List ℝ) : ℝ := l.getD (argmax l) 0

/-- Representative and weights of a group of series with sums of features `total` (1391-1394). -/
noncomputable def cluster (total : ℕ → ℝ) (group : List ℕ) : Cluster :=
  let sums := group.map total
  ⟨group, group.getD (argmax sums) 0, sums.map fun x => x / top sums⟩

/-- Clusters of one factor combination (1368-1394): `order` are the series sorted by their labels (`argsort` leaves the order within a
label open), cut where the label changes. -/
noncomputable def clustersOf (total : ℕ → ℝ) (lab : ℕ → ℕ) (order : List ℕ) : List Cluster :=
  (order.splitBy fun a b => lab a == lab b).map (cluster total)

/-- Series of a factor combination, ascending (1239-1240). -/
def ids (rows : List Row) : List ℕ := (List.range ((rows.map Row.sid).foldl max 0 + 1)).filter fun s => s ∈ rows.map Row.sid

/-- One run over all factor combinations (1236-1394). -/
noncomputable def run (total : List Row → ℕ → ℝ) (lab : List Row → ℕ → ℕ) (order : List Row → List ℕ) (splits : List (List Row)) :
    List Cluster :=
  splits.flatMap fun rows => clustersOf (total rows) (lab rows) (order rows)

/-- The run that is kept (1231, 1400-1406): a later one replaces it if its loss is smaller. -/
noncomputable def best {α : Type} (loss : α → ℝ) : List α → Option α
  | [] => none
  | a :: l => some (l.foldl (fun b c => if loss c < loss b then c else b) a)

/-! ## Use of the clusters -/

/-- Sum over the columns taken for series `s` (matrix_solvers.py 753-762, 768-769): `q c` is the squared norm of column `c` of
`L^-1 P D_J_emb`. -/
noncomputable def block (q : ℕ → ℝ) (dStart nCoef rank s : ℕ) : ℝ :=
  ∑ c ∈ Finset.Ico (dStart + s * nCoef) (dStart + (s + 1) * nCoef - (nCoef - rank)), q c

/-- The pair returned by `compute_B` (750-813). -/
noncomputable def approx (b : ℕ → ℝ) (cs : List Cluster) : ℝ × ℝ :=
  ((cs.map fun c => (c.weights.map fun w => w * b c.rep).sum).sum, (cs.map fun c => (c.weights.length : ℝ) * b c.rep).sum)

/-- What is approximated: the sum over all columns of the penalty (678-685, 736-737), `levels` functions with `nCoef` coefficients. -/
noncomputable def exact (q : ℕ → ℝ) (dStart nCoef levels : ℕ) : ℝ := ∑ c ∈ Finset.Ico dStart (dStart + levels * nCoef), q c

end Verif.Clus
