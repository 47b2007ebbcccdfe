import Verif.SecantModel
import Mathlib.Data.Finset.Sort

/-!
# The last approximation of quasi-Newton fits (property C135)

Model of the choice of the columns approximated by finite differences and of the number of update vectors (models.py 1075-1157),
of `sampleHcoef` (src/mssm/src/python/gamm_solvers.py 7681-7872) and of the degrees of freedom returned by
`solve_generalSmooth_sparse` (9590-9636).

External: `numpy.random.Generator.choice` without replacement, `sample_ys_qefs` for a seed (C110), `calculate_edf`.
-/

namespace Verif.Rsm

open Matrix Verif.Compact Verif.Secant

/-! ## Columns by finite differences -/

/-- `structured_qefs_budget`: a list of columns, a number, a float. -/
inductive Budget where
  | cols (l : List ℕ)
  | count (k : ℕ)
  | share (q : ℝ)

/-- One formula: number of coefficients, and for each linear, impulse response or smooth term whether it is an `fs` term and its
`coef_idx_per_term`. -/
structure Form where
  nCoef : ℕ
  terms : List (Bool × List ℕ)

/-- Columns of fixed effects (1085-1100). -/
def fixedCols : ℕ → List Form → List ℕ
  | _, [] => []
  | start, f :: fs =>
    ((f.terms.filter fun t => !t.1).flatMap fun t => t.2.map (· + start)) ++ fixedCols (start + f.nCoef) fs

/-- `start_idx` after the formulas. -/
def total (forms : List Form) : ℕ := (forms.map Form.nCoef).sum

/-- With the additional coefficients of the family (1102-1104). -/
def candidates (forms : List Form) (extra : ℕ) : List ℕ := fixedCols 0 forms ++ (List.range extra).map (· + total forms)

/-- `np.unique`: ascending, without duplicates. -/
def unique (l : List ℕ) : List ℕ := l.toFinset.sort (· ≤ ·)

/-- `np_gen.choice(l, size=k, replace=False)` for `k ≤ len(l)`: `k` positions, all different, in some order. -/
def Choice (choice : List ℕ → ℕ → List ℕ) : Prop :=
  ∀ l k, k ≤ l.length → ∃ s, s.Sublist l ∧ s.length = k ∧ (choice l k).Perm s

open Classical in
/-- `cols_budget` (1107-1109); a float above one is kept, here rounded down (the comparison with a number of columns is the same). -/
noncomputable def colsBudget (m : ℕ) : Budget → ℕ
  | .cols l => l.length
  | .count k => k
  | .share q => if q ≤ 1 then max 1 ⌊q * m⌋₊ else ⌊q⌋₊

open Classical in
/-- The columns chosen before they are sorted (1106-1118), `n` is `len(coef)`. -/
noncomputable def pick (choice : List ℕ → ℕ → List ℕ) (c : List ℕ) (budget n : ℕ) : Option (List ℕ) :=
  let l := if c.length = n ∧ c.length ≤ budget then choice c (n - 1)
    else if budget < c.length then choice c budget else c
  if l = [] then none else some l

open Classical in
/-- `fcols` (1075-1122). A negative or zero number gives `None`. -/
noncomputable def fcols (choice : List ℕ → ℕ → List ℕ) (structured : Bool) (b : Budget) (c : List ℕ) (n : ℕ) : Option (List ℕ) :=
  if structured then
    match b with
    | .cols l => some (unique l)
    | .count k => if 0 < k then (pick choice c (colsBudget c.length b) n).map unique else none
    | .share q => if 0 < q then (pick choice c (colsBudget c.length b) n).map unique else none
  else none

/-- `N_u` (1139-1143; 9613-9617): `int(usage * N_b)`, at least one. -/
noncomputable def nVectors (usage : ℝ) (n : ℕ) (fc : Option (List ℕ)) : ℕ := max 1 ⌊usage * (n - (fc.getD []).length : ℕ)⌋₊

/-! ## Sampling at the final coefficients -/

variable {t f a : ℕ}

/-- The loop (7817-7835): `left` attempts remain; `updates` starts at -1, so that the first attempt is always made. Returns pairs and
`updates` of the last attempt. -/
def attempts (sample : ℕ → List (Pair t) × ℕ) (force : ℕ) : ℕ → ℕ → List (Pair t) × ℕ
  | 0, seed => sample seed
  | left + 1, seed => if (sample seed).2 < force then attempts sample force left (seed + 1) else sample seed

/-- Attributes of the stored operator. -/
structure Op (t f : ℕ) where
  pairs : List (Pair t)
  nHfd : Matrix (Fin t) (Fin t) ℝ
  I : Matrix (Fin f) (Fin f) ℝ
  sampled : Bool

/-- Correction of a sampled pair (7841-7845). -/
noncomputable def correct (tc : Fin f ⊕ Fin a → Fin t) (k : Blk t f) (p : Pair t) : Pair t :=
  let y := ycorr tc k.nHfd k.I p.s p.y
  ⟨y, p.s, 1 / (p.s ⬝ᵥ y)⟩

/-- What `sampleHcoef` is called with; `tc` gives the columns if `fcols` is not `None`, `blk` the block at `coef`
(7767-7784), `penalised` whether there are penalties, `passed` whether `S_emb` was given. -/
structure Args (t f a : ℕ) where
  tc : Option (Fin f ⊕ Fin a → Fin t)
  blk : Blk t f
  penalised : Bool
  passed : Bool
  makePsd : Bool := true
  force : ℕ := 0
  seed : ℕ
  sample : ℕ → List (Pair t) × ℕ
  edf : Op t f → ℝ × List ℝ

/-- The operator with the sampled pairs (7837-7853). -/
noncomputable def Args.fill (x : Args t f a) (o : Op t f) (l : List (Pair t)) : Op t f :=
  match x.tc with
  | some tc => ⟨l.map (correct tc x.blk), x.blk.nHfd, x.blk.I, true⟩
  | none => { o with pairs := l, sampled := true }

/-- `total_edf` set with the penalty matrix (7755-7765). -/
def Args.edf0 (x : Args t f a) : Option ℝ := if !x.passed && !x.penalised then some t else none

/-- `sampleHcoef`: operator, number of updates, total and termwise degrees of freedom. -/
noncomputable def Args.run (x : Args t f a) (o : Op t f) : Op t f × ℕ × Option ℝ × Option (List ℝ) :=
  let r := attempts x.sample x.force 29 x.seed
  if 0 < r.2 then
    let o' := x.fill o r.1
    if x.penalised && x.makePsd then (o', r.2, some (x.edf o').1, some (x.edf o').2)
    else (o', r.2, x.edf0, none)
  else (o, r.2, x.edf0, none)

/-- Degrees of freedom returned by the solver for `method="qEFS"` (9590-9636, models.py 1204): `before` those of the last outer iteration;
`again` whether the approximation is sampled again (9604-9606), which is done with `S_emb` given. -/
noncomputable def finalEdf (x : Args t f a) (o : Op t f) (before : ℝ) (again : Bool) : Option ℝ :=
  let e : Option ℝ := if x.penalised then some before else some t
  if again then
    let r := { x with passed := true }.run o
    if 0 < r.2.1 then r.2.2.1 else e
  else e

end Verif.Rsm
