import Verif.JhessModel
import Mathlib.Algebra.BigOperators.Group.Finset.Basic
import Mathlib.Data.Real.Sqrt
import Mathlib.Data.Nat.Find

/-!
# Model matrices (properties C43, C44, C46, C67)

Model of src/mssm/src/python/terms.py (`i`, `ri`, `l`, `rs`, `li`, `f.build_matrix`, `f.get_coef_info`, `irf.build_matrix`,
`irf.get_coef_info`, `build_linear_term`, `get_linear_coef_info`), of `Formula.__get_coef_info` (formula.py 773-874) and of
`build_sparse_matrix_from_formula` (formula.py 2544-2721).  Matrices are in coordinate form (`Verif.Jhess.coo`).
Encoded data are real numbers by row and variable name, factor codes included.  Evaluated bases (constraints and
reparameterisation applied) are parameters of the terms, their width follows the code.
-/

namespace Verif.Mmat

open Verif.Jhess (Entry coo)

/-- Encoded data: number of rows, values, whether a variable is a factor, its levels in the order of `factor_levels`,
and the level belonging to a code (`coding_factors`). -/
structure Data where
  n : ℕ
  cov : ℕ → String → ℝ
  isFac : String → Bool
  levels : String → List String
  coding : String → ℕ → String

/-- Entries of one column: rows for which `keep` holds. -/
def column (n : ℕ) (ci : ℕ) (keep : ℕ → Bool) (val : ℕ → ℝ) : List Entry :=
  ((List.range n).filter keep).map fun r => (r, ci, val r)

open Classical in
/-- `cov_flat[:, var_map[var]] == fl`. -/
noncomputable def isLevel (d : Data) (var : String) (fl : ℕ) (r : ℕ) : Bool := decide (d.cov r var = (fl : ℝ))

/-- Codes used: `range(fl_start, len(factor_levels[var]))`, terms.py (3085-3090, 3118-3124). -/
def codes (d : Data) (hasInt : Bool) (var : String) : List ℕ :=
  (List.range (d.levels var).length).drop (if hasInt then 1 else 0)

/-- A column under construction: values and rows used. -/
structure Col where
  val : ℕ → ℝ
  use : ℕ → Bool

/-- Value of a column in the model matrix. -/
def Col.at (c : Col) (r : ℕ) : ℝ := if c.use r then c.val r else 0

/-- Columns of a main effect, terms.py (3080-3106). -/
noncomputable def mainCols (d : Data) (hasInt : Bool) (var : String) : List Col :=
  if d.isFac var then (codes d hasInt var).map fun fl => ⟨fun _ => 1, isLevel d var fl⟩
  else [⟨fun r => d.cov r var, fun _ => true⟩]

/-- One pass of the loop over interacting variables, terms.py (3112-3148). -/
noncomputable def interStep (d : Data) (hasInt : Bool) (old : List Col) (var : String) : List Col :=
  if d.isFac var then
    if old.length = 0 then (codes d hasInt var).map fun fl => ⟨fun _ => 1, isLevel d var fl⟩
    else old.flatMap fun o => (codes d hasInt var).map fun fl => ⟨o.val, fun r => o.use r && isLevel d var fl r⟩
  else
    if old.length = 0 then [⟨fun r => d.cov r var, fun _ => true⟩]
    else old.map fun o => ⟨fun r => o.val r * d.cov r var, o.use⟩

/-- Columns of a linear term, `build_linear_term` (3079-3157). -/
noncomputable def linCols (d : Data) (hasInt : Bool) (vars : List String) : List Col :=
  match vars with
  | [var] => mainCols d hasInt var
  | _ => vars.foldl (interStep d hasInt) []

/-- Entries of consecutive columns. -/
def colEntries (n : ℕ) : ℕ → List Col → List Entry
  | _, [] => []
  | ci, c :: cs => column n ci c.use c.val ++ colEntries n (ci + 1) cs

/-- One pass of the loop building names, terms.py (3220-3247). -/
def nameStep (d : Data) (hasInt : Bool) (old : List String) (var : String) : List String :=
  if d.isFac var then
    if old.length = 0 then (codes d hasInt var).map fun fl => var ++ "_" ++ d.coding var fl
    else old.flatMap fun o => (codes d hasInt var).map fun fl => o ++ "_" ++ var ++ "_" ++ d.coding var fl
  else
    if old.length = 0 then [var] else old.map fun o => o ++ "_" ++ var

/-- Names of a linear term, `get_linear_coef_info` (3197-3253). -/
def linNames (d : Data) (hasInt : Bool) (vars : List String) : List String :=
  match vars with
  | [var] => if d.isFac var then (codes d hasInt var).map fun fl => var ++ "_" ++ d.coding var fl else [var]
  | _ => vars.foldl (nameStep d hasInt) []

/-- `itertools.combinations(l, k)`. -/
def combinations {α : Type} : ℕ → List α → List (List α)
  | 0, _ => [[]]
  | _ + 1, [] => []
  | k + 1, x :: xs => (combinations k xs).map (x :: ·) ++ combinations (k + 1) xs

/-- `li`, terms.py (2666-2712): variables of the terms created. -/
def li {α : Type} (vs : List α) : List (List α) :=
  (List.range vs.length).flatMap fun o => combinations (o + 1) vs

/-- A smooth `f`.  `mat` holds `matrix_term` with constraints, reparameterisation (1207-1297) and `by_cont` (1303-1305) applied. -/
structure Smooth where
  vars : List String
  nk : List ℕ
  te : Bool
  ident : Bool
  by_ : Option String
  /-- `binary[0]` and `binary_level` -/
  binary : Option (String × ℕ)
  drop : Option (List ℕ)
  penalized : Bool
  mat : ℕ → ℕ → ℝ

/-- Columns of one marginal basis (1209-1263): one more than `nk` requested and removed by the constraint when the smooth is
identifiable and not `te`. -/
def vWidth (s : Smooth) (nk : ℕ) : ℕ := if s.ident && !s.te then nk + 1 - 1 else nk

/-- `m_cols` (1299): row-wise tensor products of the marginals, constraint of `te` terms (1270-1297). -/
def mCols (s : Smooth) : ℕ :=
  let p := (s.nk.map (vWidth s)).prod
  if s.ident && s.te then p - 1 else p

/-- `n_coef` before by and drop (1187-1192, 1384-1394). -/
def termNCoef (s : Smooth) : ℕ :=
  if s.vars.length > 1 then (if s.te && s.ident then s.nk.prod - 1 else s.nk.prod) else s.nk.headD 0

/-- Coefficients per level times levels (1195-1197, 1407-1409). -/
def byFactor (d : Data) (s : Smooth) : ℕ := match s.by_ with | none => 1 | some b => (d.levels b).length

/-- `n_coef` (1186-1201, 1397-1421).  The subtraction cannot go below zero when the matrix is built (`smoothCols`). -/
def smoothNCoef (d : Data) (s : Smooth) : ℕ := termNCoef s * byFactor d s - (s.drop.getD []).length

/-- Is column `m` dropped (1318, 1334, 1343)? -/
def notDropped (s : Smooth) (m : ℕ) : Bool := match s.drop with | none => true | some dr => !dr.contains m

/-- `term_ridx` (1307-1344): for each column created the rows it uses. -/
noncomputable def termRidx (d : Data) (s : Smooth) : List (ℕ → Bool) :=
  match s.by_, s.binary with
  | some b, _ => ((List.range (d.levels b).length).flatMap fun lvl => (List.range (mCols s)).map fun m => (lvl, m)).filterMap
      fun p => if notDropped s (p.1 * mCols s + p.2) then some (isLevel d b p.1) else none
  | none, some (v, lvl) => ((List.range (mCols s)).filter (notDropped s)).map fun _ => isLevel d v lvl
  | none, none => ((List.range (mCols s)).filter (notDropped s)).map fun _ => fun _ => true

open Classical in
/-- Columns of a smooth (1351-1364): position `m` in `term_ridx` takes column `m % m_cols` of the basis; entries not above
`tol` in absolute value are left out.  `none` when the control check (1348-1349) raises. -/
noncomputable def smoothCols (d : Data) (tol : ℝ) (s : Smooth) : Option (List Col) :=
  if termNCoef s * byFactor d s ≠ (termRidx d s).length + (s.drop.getD []).length then none
  else some ((termRidx d s).mapIdx fun m use =>
    ⟨fun r => s.mat r (m % mCols s), fun r => use r && decide (|s.mat r (m % mCols s)| > tol)⟩)

/-- `var_label` (1400-1405). -/
def varLabel (s : Smooth) : String :=
  String.intercalate "_" s.vars ++ (match s.binary with | none => "" | some b => b.1)

/-- Names before drops (1407-1417). -/
def smoothNames0 (d : Data) (s : Smooth) : List String :=
  match s.by_ with
  | some b => (d.levels b).flatMap fun lvl => (List.range (termNCoef s)).map fun k => "f_" ++ varLabel s ++ "_" ++ toString k ++ "_" ++ lvl
  | none => (List.range (termNCoef s)).map fun k => "f_" ++ varLabel s ++ "_" ++ toString k

/-- Names of a smooth, `f.get_coef_info` (1419-1424). -/
def smoothNames (d : Data) (s : Smooth) : List String :=
  match s.drop with
  | none => smoothNames0 d s
  | some dr => ((smoothNames0 d s).mapIdx fun k nm => (k, nm)).filterMap fun p => if dr.contains p.1 then none else some p.2

/-- An impulse response term.  `series` holds for each series its rows and the code of the by-variable; `mat` is
`matrix_term` (2264-2297) by overall row number. -/
structure Irf where
  vars : List String
  nk : List ℕ
  by_ : Option String
  penalized : Bool
  series : List (ℕ × ℕ)
  mat : ℕ → ℕ → ℝ

/-- `n_coef` without by (2109-2112, 2198-2202). -/
def irfWidth (s : Irf) : ℕ := if s.vars.length > 1 then s.nk.prod else s.nk.headD 0

/-- `n_coef` (2114-2117, 2209-2211). -/
def irfNCoef (d : Data) (s : Irf) : ℕ := irfWidth s * (match s.by_ with | none => 1 | some b => (d.levels b).length)

/-- Series code of row `r`: series follow one another. -/
def rowCode : List (ℕ × ℕ) → ℕ → ℕ
  | [], _ => 0
  | (len, code) :: ss, r => if r < len then code else rowCode ss (r - len)

/-- Entry of `final_term` (2299-2326): with `by` the block of the level of the series, else the basis. -/
noncomputable def irfVal (s : Irf) (r m : ℕ) : ℝ :=
  match s.by_ with
  | none => s.mat r m
  | some _ => if m / irfWidth s = rowCode s.series r then s.mat r (m % irfWidth s) else 0

open Classical in
/-- Columns of an impulse response term (2119-2177): the entries of all series above `tol`, series below one another;
processing series in parallel gives the same. Every basis is taken to return `nk` columns, so the check (2140) passes. -/
noncomputable def irfCols (d : Data) (tol : ℝ) (s : Irf) : List Col :=
  (List.range (irfNCoef d s)).map fun m => ⟨fun r => irfVal s r m, fun r => decide (|irfVal s r m| > tol)⟩

/-- Names, `irf.get_coef_info` (2204-2219): `lab` is the argument printed after `irf_`. -/
def irfNames (d : Data) (lab : String) (s : Irf) : List String :=
  match s.by_ with
  | some b => (d.levels b).flatMap fun lvl => (List.range (irfNCoef d s)).map fun k =>
      "irf_" ++ lab ++ "_" ++ String.intercalate "_" s.vars ++ "_" ++ toString k ++ "_" ++ lvl
  | none => (List.range (irfNCoef d s)).map fun k => "irf_" ++ lab ++ "_" ++ String.intercalate "_" s.vars ++ "_" ++ toString k

/-- Terms. -/
inductive Term
  | int
  | lin (vars : List String)
  | irf (s : Irf)
  | smooth (s : Smooth)
  | ri (var : String)
  | rs (vars : List String) (by_ : Option String)

/-- Columns of a random slope with by-variable (2954-2973). -/
noncomputable def rsCols (d : Data) (vars : List String) (by_ : Option String) : List Col :=
  match by_ with
  | none => linCols d false vars
  | some b => (List.range (d.levels b).length).flatMap fun fl =>
      (linCols d false vars).map fun c => ⟨c.val, fun r => c.use r && isLevel d b fl r⟩

/-- Names of a random slope (3007-3020). -/
def rsNames (d : Data) (vars : List String) (by_ : Option String) : List String :=
  match by_ with
  | none => (linNames d false vars).map fun c => "rs(" ++ c ++ ")"
  | some b => (List.range (d.levels b).length).flatMap fun fl => (linNames d false vars).map fun c => "rs(" ++ c ++ "_" ++ d.coding b fl ++ ")"

/-- Columns of a term; `none` when an error is raised. -/
noncomputable def termCols (d : Data) (tol : ℝ) (hasInt : Bool) : Term → Option (List Col)
  | .int => some [⟨fun _ => 1, fun _ => true⟩]
  | .lin vars => some (linCols d hasInt vars)
  | .irf s => some (irfCols d tol s)
  | .smooth s => smoothCols d tol s
  | .ri var => some ((List.range (d.levels var).length).map fun fl => ⟨fun _ => 1, isLevel d var fl⟩)
  | .rs vars by_ => some (rsCols d vars by_)

/-- `build_matrix` of a term: nothing is stored when `use_only` leaves the term out, the number of columns stays
(e.g. 141-144, 2481-2486, 3092-3097, 1358-1363). -/
noncomputable def buildTerm (d : Data) (tol : ℝ) (hasInt : Bool) (ci : ℕ) (use : Bool) (t : Term) : Option (List Entry × ℕ) :=
  (termCols d tol hasInt t).map fun cs => (if use then colEntries d.n ci cs else [], cs.length)

/-- `get_coef_info`: number of coefficients reported and names.  `lab` as in `irfNames`. -/
def coefInfo (d : Data) (lab : String) (hasInt : Bool) : Term → ℕ × List String
  | .int => (1, ["Intercept"])
  | .lin vars => ((linNames d hasInt vars).length, linNames d hasInt vars)
  | .irf s => (irfNCoef d s, irfNames d lab s)
  | .smooth s => (smoothNCoef d s, smoothNames d s)
  | .ri var => ((List.range (d.levels var).length).length, (List.range (d.levels var).length).map fun fl => "ri(" ++ var ++ "_" ++ d.coding var fl ++ ")")
  | .rs vars by_ => ((linNames d false vars).length * (match by_ with | none => 1 | some b => (d.levels b).length), rsNames d vars by_)

/-- `has_constant` after a term (formula.py 808-812, 2645-2649): turned on by the first linear term with a factor. -/
def nextConst (d : Data) (hc : Bool) : Term → Bool
  | .lin vars => hc || vars.any d.isFac
  | _ => hc

/-- `use_only is None or ti in use_only`. -/
def isUsed (useOnly : Option (List ℕ)) (ti : ℕ) : Bool := match useOnly with | none => true | some l => l.contains ti

/-- Loop of `build_sparse_matrix_from_formula` (2614-2717) over terms in the order linear, impulse response, smooth, random;
each comes with its position in the formula. -/
noncomputable def buildLoop (d : Data) (tol : ℝ) (useOnly : Option (List ℕ)) : Bool → ℕ → List (ℕ × Term) → Option (List Entry × ℕ)
  | _, ci, [] => some ([], ci)
  | hc, ci, (ti, t) :: ts =>
    match buildTerm d tol hc ci (isUsed useOnly ti) t with
    | none => none
    | some (es, k) =>
      match buildLoop d tol useOnly (nextConst d hc t) (ci + k) ts with
      | none => none
      | some (es', c) => some (es ++ es', c)

/-- Loop of `Formula.__get_coef_info` (773-874): names, coefficients per term and columns per term. -/
def infoLoop (d : Data) (lab : String) : Bool → ℕ → List (ℕ × Term) → List String × List ℕ × List (List ℕ) × ℕ
  | _, n, [] => ([], [], [], n)
  | hc, n, (_, t) :: ts =>
    let i := coefInfo d lab hc t
    let rest := infoLoop d lab (nextConst d hc t) (n + i.1) ts
    (i.2 ++ rest.1, i.1 :: rest.2.1, List.range' n i.1 :: rest.2.2.1, rest.2.2.2)

/-- `pred = predi_mat @ coef` (models.py 1463), row `r`; `X` is the model matrix. -/
noncomputable def predict (X : ℕ → ℕ → ℝ) (w : ℕ) (coef : ℕ → ℝ) (r : ℕ) : ℝ := ∑ c ∈ Finset.range w, X r c * coef c

/-- `(predi_mat @ lvi.T @ lvi * self.scale @ predi_mat.T).diagonal()` (models.py 1468-1469, 1582-1583); `lvi` has `k` rows. -/
noncomputable def predVar (X : ℕ → ℕ → ℝ) (w k : ℕ) (lvi : ℕ → ℕ → ℝ) (scale : ℝ) (r : ℕ) : ℝ :=
  ∑ c' ∈ Finset.range w, (∑ i ∈ Finset.range k, (∑ c ∈ Finset.range w, X r c * lvi i c) * lvi i c' * scale) * X r c'

/-- Boundary of the interval (models.py 1470, 1584); `q` is `norm.ppf(1 - alpha / 2)`. -/
noncomputable def predB (X : ℕ → ℕ → ℝ) (w k : ℕ) (lvi : ℕ → ℕ → ℝ) (scale q : ℝ) (r : ℕ) : ℝ :=
  q * Real.sqrt (predVar X w k lvi scale r)

/-- `predict_diff` (models.py 1561-1592) without whole-interval adjustment. -/
noncomputable def predictDiff (X₁ X₂ : ℕ → ℕ → ℝ) (w k : ℕ) (lvi : ℕ → ℕ → ℝ) (scale q : ℝ) (coef : ℕ → ℝ) (r : ℕ) : ℝ × ℝ :=
  (predict (fun r c => X₁ r c - X₂ r c) w coef r, predB (fun r c => X₁ r c - X₂ r c) w k lvi scale q r)

end Verif.Mmat
