import Verif.TensorModel

/-!
# Model of identifiability constraints, from a data-frame and from files
(`formula.py`: `_compute_constraint_single_MP` 52-132, `Formula.__absorb_constraints2` 1408-1507,
`Formula.__absorb_constraints` 1509-1666; `terms.py`: checks of `absorb_repara` 459-639, `f.build_matrix` 1178-1366 for terms that are
not re-parameterised)

Rows of the data are functions from variables of the term to values; only rows with an available response are passed
(`NOT_NA_flat`, `read_cor_cov_single`). A basis gives the values of the functions of one variable at one value, given their number; `min_c`,
`max_c` and `basis_kwargs` are fixed for a variable.
-/

namespace Verif.Cons

open Verif.Pen

/-- Row of the data: values of the variables of the term. -/
abbrev Row := ℕ → ℝ

/-- `sterm.basis`: number of functions, variable, value, function. -/
abbrev Basis := ℕ → ℕ → ℝ → ℕ → ℝ

/-- Exceptions. -/
inductive Err where
  | value | notImpl
deriving DecidableEq

/-- Attributes of a smooth term that matter here (terms.py 331-446): number of variables, `te`, `should_rp`, `is_identifiable`,
`_const_type`, `nk` per variable. -/
structure Term where
  nv : ℕ
  te : Bool
  rp : ℕ
  ident : Bool
  kind : Kind
  nk : ℕ → ℕ

/-- `rp is None` (364-368) and `constraint=ConstType.QR`, `identifiable=True`. -/
def default (nv : ℕ) (te : Bool) (nk : ℕ → ℕ) : Term := ⟨nv, te, if nv = 1 then 0 else 2, true, .qr, nk⟩

/-- `kind == ConstType.QR`. -/
def isQr : Kind → Bool
  | .qr => true
  | _ => false

/-- `id_nk` (formula.py 98-104, 1568-1574): one more function for terms that are not `te`. -/
def idNk (t : Term) (v : ℕ) : ℕ := if t.te then t.nk v else t.nk v + 1

/-- `matrix_term_v` for `id_nk` functions. -/
def matV (basis : Basis) (k : ℕ) (rows : List Row) (v : ℕ) : Arr := fun r a => basis k v (rows.getD r 0 v) a

/-- Which calls of `absorb_repara` raise (terms.py 509-518, 559-571, 601, 636-639). At 601 a basis is multiplied by `constraint.Z`, an
integer unless the constraint is a QR one; numpy raises `ValueError`. -/
def repara (t : Term) : Except Err Unit :=
  if t.rp = 1 then (if t.nv > 1 then .error .value else .ok ())
  else if t.rp = 2 then
    (if t.nv < 2 then .error .value
     else if t.ident ∧ ¬ t.te ∧ ¬ isQr t.kind then .error .value
     else .ok ())
  else .error .value

/-- Terms that are not identifiable (1427-1463, 1527-1559): re-parameterisation of all variables, if requested. -/
def plain (t : Term) : Except Err (List Con) :=
  if t.rp > 0 then (List.range t.nv).foldlM (fun z _ => do repara t; pure z) [] else .ok []

/-- One pass of the loop over variables (1564-1651) without the update of the tensor product. -/
def step (qrQ : (ℕ → ℝ) → Arr) (basis : Basis) (t : Term) (rows : List Row) (z : List Con) (v : ℕ) : Except Err (List Con) := do
  let z := if t.te then z else z ++ [makeCon qrQ (idNk t v) rows.length t.kind (matV basis (idNk t v) rows v)]
  if t.rp > 0 then repara t
  pure z

/-- Unconstrained basis of a tensor smooth (1647-1651, 123-126) and number of its columns. -/
def teBasis (basis : Basis) (t : Term) (rows : List Row) : Arr := tpBasis t.nk (fun v => matV basis (t.nk v) rows v) (t.nv - 1)
def teCols (t : Term) : ℕ := ∏ v ∈ Finset.range (t.nv - 1 + 1), t.nk v

/-- `__absorb_constraints` for one term (1524-1666): the list `sterm.Z`. -/
def absorbMem (qrQ : (ℕ → ℝ) → Arr) (basis : Basis) (t : Term) (rows : List Row) : Except Err (List Con) :=
  if ¬ t.ident then plain t
  else do
    let z ← (List.range t.nv).foldlM (step qrQ basis t rows) []
    if t.te then pure (z ++ [makeCon qrQ (teCols t) rows.length t.kind (teBasis basis t rows)]) else pure z

/-- `_compute_constraint_single_MP` (88-132): the column sums of one file, a list with one entry for every variable if the term has several and is
not `te`, a single entry otherwise. -/
def fileC (basis : Basis) (t : Term) (rows : List Row) : List (ℕ → ℝ) :=
  if t.te then [fun a => ∑ r ∈ Finset.range rows.length, teBasis basis t rows r a]
  else (List.range t.nv).map fun v a => ∑ r ∈ Finset.range rows.length, matV basis (idNk t v) rows v r a

/-- `np.sum(np.array([cvi[vi] for cvi in C]), axis=0)` (1493, 1498). -/
def total (cs : List (List (ℕ → ℝ))) (v : ℕ) : ℕ → ℝ := fun a => (cs.map fun c => c.getD v 0 a).sum

/-- `Constraint(Q[:, 1:], ConstType.QR)` (1494-1495, 1499-1500). -/
def qrCon (qrQ : (ℕ → ℝ) → Arr) (c : ℕ → ℝ) : Con := .qr fun a j => qrQ c a (j + 1)

/-- `__absorb_constraints2` for one term (1424-1507). -/
def absorbFiles (qrQ : (ℕ → ℝ) → Arr) (basis : Basis) (t : Term) (files : List (List Row)) : Except Err (List Con) :=
  if ¬ t.ident then plain t
  else if t.rp > 0 then .error .value
  else if isQr t.kind then
    let cs := files.map (fileC basis t)
    if t.te ∨ t.nv = 1 then .ok [qrCon qrQ (total cs 0)]
    else .ok ((List.range t.nv).map fun v => qrCon qrQ (total cs v))
  else .error .notImpl

/-- Number of functions of a variable in `build_matrix` (terms.py 1209-1215). -/
def bmNk (t : Term) (v : ℕ) : ℕ := if t.ident ∧ ¬ t.te then t.nk v + 1 else t.nk v

/-- Columns of a variable after its constraint (1218-1258). -/
def marg (basis : Basis) (t : Term) (Z : List Con) (rows : List Row) (v : ℕ) : Arr :=
  let B := matV basis (bmNk t v) rows v
  if t.ident ∧ ¬ t.te then absorbB (bmNk t v) (Z.getD v (.drop 0)) B else B

/-- `matrix_term` (1207-1297) for `should_rp == 0`. -/
def termMat (basis : Basis) (t : Term) (Z : List Con) (rows : List Row) : Arr :=
  let M := tpBasis t.nk (marg basis t Z rows) (t.nv - 1)
  if t.ident ∧ t.te then absorbB (teCols t) (Z.getD 0 (.drop 0)) M else M

/-- `m_cols`, `n_coef` without `by` (1187-1192). -/
def cols (t : Term) : ℕ := if t.ident ∧ t.te then teCols t - 1 else teCols t

/-- Matrix of a term with `by` (1308-1320, 1352-1354): the columns once for every level, zero in rows of other levels. -/
def byMat (basis : Basis) (t : Term) (Z : List Con) (rows : List Row) (level : ℕ → ℕ) : Arr :=
  fun r c => if level r = c / cols t then termMat basis t Z rows r (c % cols t) else 0

/-- Matrix of a term with `by_cont` (1303-1305). -/
def contMat (basis : Basis) (t : Term) (Z : List Con) (rows : List Row) (w : ℕ → ℝ) : Arr :=
  fun r c => termMat basis t Z rows r c * w r

end Verif.Cons
