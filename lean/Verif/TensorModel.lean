import Verif.PenModel

/-!
# Model of tensor smooths (`smooths.py` `TP_basis_calc` 179-200, `terms.py` 1283-1287,
`penalties.py` `TP_pen` 647-767)

A tensor smooth has margins `0, …, d` with `ks i` coefficients each.
-/

namespace Verif.Pen

/-- `scp.linalg.khatri_rao(cTP.T, nB.T).T`: row-wise Kronecker product, `nb` the number of columns
of the second matrix. -/
def khatri (nb : ℕ) (A B : Arr) : Arr := fun r j => A r (j / nb) * B r (j % nb)

/-- Basis of a tensor smooth: the loop over the variables of a term (terms.py 1283-1287). -/
def tpBasis (ks : ℕ → ℕ) (B : ℕ → Arr) (d : ℕ) : Arr :=
  (List.range d).foldl (fun acc t => khatri (ks (t + 1)) acc (B (t + 1))) (B 0)

/-- `scp.sparse.kron(A, B)`, `rb` and `cb` the shape of the second matrix. -/
def kron (rb cb : ℕ) (A B : Arr) : Arr := fun i j => A (i / rb) (j / cb) * B (i % rb) (j % cb)

/-- The Kronecker loop of `TP_pen` (687-702) for a marginal matrix with `ks j` rows and `cs`
columns. -/
def tpKron (ks : ℕ → ℕ) (j cs : ℕ) (S : Arr) (d : ℕ) : Arr :=
  (List.range d).foldl
    (fun acc t => if j = t + 1 then kron (ks (t + 1)) cs acc S
      else kron (ks (t + 1)) (ks (t + 1)) acc eye)
    (if j = 0 then S else eye)

/-- Scaling by the largest eigenvalue `e` of the marginal penalty (682-685). -/
noncomputable def scaleS (scale : Bool) (e : ℝ) (S : Arr) : Arr :=
  if scale then fun i j => S i j / e else S

noncomputable def scaleD (scale : Bool) (e : ℝ) (D : Arr) : Arr :=
  if scale then fun i j => D i j / Real.sqrt e else D

/-- Number of columns of the Kronecker root. -/
def tpCols (ks : ℕ → ℕ) (j cs d : ℕ) : ℕ :=
  ∏ i ∈ Finset.range (d + 1), if i = j then cs else ks i

/-- `TP_pen` (682-763).  `eigTop` is the last eigenvalue returned by `eigh`; `maxCol` the largest
column index that occurs in the sparse root.  `none` is the `ValueError` at 741. -/
noncomputable def tpPen (eigTop : ℝ) (eigh : ℕ → Arr → (ℕ → ℝ) × Arr) (maxCol : Arr → ℕ)
    (ks : ℕ → ℕ) (j cs : ℕ) (S D : Arr) (d : ℕ) (con : Option Con) (scale : Bool) :
    Option (Arr × Arr × ℕ) :=
  let N := ∏ i ∈ Finset.range (d + 1), ks i
  let S' := tpKron ks j (ks j) (scaleS scale eigTop S) d
  let D' := tpKron ks j cs (scaleD scale eigTop D) d
  let nc := tpCols ks j cs d
  match con with
  | none => some (S', D', nc)
  | some con =>
    let S'' := absorbS N nc con S' D'
    let D'' := absorbD N con D'
    if maxCol D'' + 1 > N - 1 then
      if con.isDiff then none
      else some (S'', eigRoot (eigh (N - 1) S''), N - 1)
    else some (S'', D'', nc)

end Verif.Pen
