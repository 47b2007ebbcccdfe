import Verif.LssModel

/-!
# Model of the derivative transformations (`gamm_solvers.py`: `deriv_transform_mu_eta` 4229-4353,
`deriv_transform_eta_beta` 4356-4463) and of their use in `utils.py` (`GAMLSSGSMMFamily.llk` 287-294,
`gradient` 361-391, `hessian` 428-452)

`n` observations, `K` linear predictors.  Sparse model matrices are functions, `w k` is the number
of columns of matrix `k`.  A COO triplet list stands for the matrix whose entry is the sum of the
values of all triplets at that position (scipy's documented conversion).
-/

namespace Verif.EtaBeta
open Verif

/-- A `GAMLSSFamily` as used by the solver: links, log density, and `dpars` for the three orders.
`dEta` is the flag `d_eta` (derivatives are already with respect to the linear predictors). -/
structure LFam (K : ℕ) where
  links : Fin K → Fam.LinkKind
  dEta : Bool
  lp : ℝ → (Fin K → ℝ) → ℝ
  d1 : Fin K → ℝ → (Fin K → ℝ) → Fl
  d2 : Fin K → ℝ → (Fin K → ℝ) → Fl
  d2m : ℕ → ℝ → (Fin K → ℝ) → Fl

variable {K : ℕ}

/-- `mus = [links[ei].fi(etas[ei]) for ei in ...]` (utils.py 292, 366, 430), one observation. -/
noncomputable def musOf (fam : LFam K) (eta : Fin K → ℝ) : Fin K → ℝ :=
  fun k => ((fam.links k).fi (.fin (eta k))).val

/-- Loop at 4283-4292. -/
noncomputable def d1eta (fam : LFam K) (y : ℝ) (mus : Fin K → ℝ) (k : Fin K) : Fl :=
  Fl.clean (fam.d1 k y mus / (fam.links k).dy1 (.fin (mus k)))

/-- Loop at 4324-4335. -/
noncomputable def d2eta (fam : LFam K) (y : ℝ) (mus : Fin K → ℝ) (k : Fin K) : Fl :=
  let ld1 := (fam.links k).dy1 (.fin (mus k))
  let ld2 := (fam.links k).dy2 (.fin (mus k))
  Fl.clean (fam.d2 k y mus / Fl.pow ld1 2 - fam.d1 k y mus * ld2 / Fl.pow ld1 3)

/-- Body of the loop at 4340-4351. -/
noncomputable def d2em (fam : LFam K) (y : ℝ) (mus : Fin K → ℝ) (mixed : ℕ) (i j : Fin K) : Fl :=
  Fl.clean (fam.d2m mixed y mus * (.fin 1 / (fam.links i).dy1 (.fin (mus i)))
    * (.fin 1 / (fam.links j).dy1 (.fin (mus j))))

/-- The loop at 4339-4351: `mixed_idx` counts the executed bodies. -/
noncomputable def d2meta (fam : LFam K) (y : ℝ) (mus : Fin K → ℝ) : List Fl :=
  ((List.finRange K).foldl (fun (st : ℕ × List Fl) mui =>
    ((List.finRange K).filter (mui < ·)).foldl (fun (st : ℕ × List Fl) muj =>
      (st.1 + 1, st.2 ++ [d2em fam y mus st.1 mui muj])) st) (0, [])).2

/-- The three lists handed to `deriv_transform_eta_beta` (utils.py 432-447): transformed, or as
returned by the family when `d_eta` is set. -/
noncomputable def etaDerivs (fam : LFam K) (y : ℝ) (mus : Fin K → ℝ) :
    List Fl × List Fl × List Fl :=
  if fam.dEta then
    ((List.finRange K).map (fun k => fam.d1 k y mus), (List.finRange K).map (fun k => fam.d2 k y mus),
      (List.range (K * (K - 1) / 2)).map (fun m => fam.d2m m y mus))
  else
    ((List.finRange K).map (d1eta fam y mus), (List.finRange K).map (d2eta fam y mus),
      d2meta fam y mus)

/-! ### Coefficients -/

variable {n : ℕ}

/-- Gradient part (4377-4386): `grad.extend((d1eta[etai].T @ Xs[etai]).T)`. -/
def gradList (K : ℕ) (w : ℕ → ℕ) (X : ℕ → Fin n → ℕ → ℝ) (d1 : List (Fin n → ℝ)) : List ℝ :=
  (List.range K).flatMap fun etai =>
    (List.range (w etai)).map fun c => ∑ o, (d1.getD etai 0) o * X etai o c

/-- Coordinate triplets. -/
abbrev Coo := List (ℕ × ℕ × ℝ)

/-- Loop over the coefficients of one block (4421-4457).  `stored c` are the (sorted) column indices
stored by scipy for row `c` of the sparse product, relative to the column slice. -/
def blockTrip (wi : ℕ) (d2 : Fin n → ℝ) (Xi Xj : Fin n → ℕ → ℝ) (same : Bool) (hr hc : ℕ)
    (stored : ℕ → List ℕ) : Coo :=
  (List.range wi).flatMap fun coefi =>
    let sh := if same then coefi else 0
    let cols := (stored coefi).map (· + sh)
    let val := fun c => ∑ o, d2 o * Xi o coefi * Xj o c
    match cols with
    | [] => []
    | c0 :: rest =>
      cols.map (fun c => (coefi + hr, c + hc, val c)) ++
      if same ∧ c0 + hc = coefi + hr then rest.map (fun c => (c + hc, coefi + hr, val c))
      else cols.map (fun c => (c + hc, coefi + hr, val c))

/-- Inner loop over `etaj` (4405-4459); the state is `(hc_idx, mixed_idx, triplets)`. -/
def innerStep (w : ℕ → ℕ) (X : ℕ → Fin n → ℕ → ℝ) (d2e d2m : List (Fin n → ℝ))
    (stored : ℕ → ℕ → ℕ → List ℕ) (etai hr : ℕ) (st : ℕ × ℕ × Coo) (etaj : ℕ) : ℕ × ℕ × Coo :=
  let (hc, mixed, L) := st
  if etaj < etai then (hc + w etaj, mixed, L)
  else if etai = etaj then
    (hc + w etaj, mixed,
      L ++ blockTrip (w etai) (d2e.getD etai 0) (X etai) (X etaj) true hr hc (stored etai etaj))
  else
    (hc + w etaj, mixed + 1,
      L ++ blockTrip (w etai) (d2m.getD mixed 0) (X etai) (X etaj) false hr hc (stored etai etaj))

/-- Outer loop over `etai` (4397-4460); the state is `(hr_idx, mixed_idx, triplets)`. -/
def hessTrip (K : ℕ) (w : ℕ → ℕ) (X : ℕ → Fin n → ℕ → ℝ) (d2e d2m : List (Fin n → ℝ))
    (stored : ℕ → ℕ → ℕ → List ℕ) : Coo :=
  ((List.range K).foldl (fun (st : ℕ × ℕ × Coo) etai =>
    let (hr, mixed, L) := st
    let (_, mixed', L') := (List.range K).foldl (innerStep w X d2e d2m stored etai hr) (0, mixed, L)
    (hr + w etai, mixed', L')) (0, 0, [])).2.2

/-- Entry of the matrix represented by triplets (4462). -/
noncomputable def entry (L : Coo) (r c : ℕ) : ℝ :=
  (L.map fun t => if t.1 = r ∧ t.2.1 = c then t.2.2 else 0).sum

/-- Shape inferred by `csc_array((vals, (rows, cols)))` without `shape` (4462): one more than the
largest index; `none` is the `ValueError` raised for empty index arrays. -/
def inferShape (L : Coo) : Option (ℕ × ℕ) :=
  if L = [] then none
  else some ((L.map fun t => t.1).foldr max 0 + 1, (L.map fun t => t.2.1).foldr max 0 + 1)

/-! ### The likelihood as a function of the coefficients -/

/-- Linear predictors `Xs[ei] @ split_coef[ei]` of observation `o` (utils.py 291). -/
def etaOf (w : ℕ → ℕ) (X : ℕ → Fin n → ℕ → ℝ) (c : (Σ k : Fin K, Fin (w k)) → ℝ) (o : Fin n) :
    Fin K → ℝ :=
  fun k => ∑ a : Fin (w k), X k o a * c ⟨k, a⟩

/-- `GAMLSSGSMMFamily.llk` (287-294) for a location-scale family. -/
noncomputable def llk (fam : LFam K) (w : ℕ → ℕ) (X : ℕ → Fin n → ℕ → ℝ) (y : Fin n → ℝ)
    (c : (Σ k : Fin K, Fin (w k)) → ℝ) : ℝ :=
  ∑ o, fam.lp (y o) (musOf fam (etaOf w X c o))

/-- Component `m` of one of the three lists, over all observations. -/
noncomputable def obsList (len : ℕ) (f : Fin n → List Fl) : List (Fin n → ℝ) :=
  (List.range len).map fun m => fun o => ((f o).getD m .nan).val

/-- `GAMLSSGSMMFamily.gradient` (361-391). -/
noncomputable def gradient (fam : LFam K) (w : ℕ → ℕ) (X : ℕ → Fin n → ℕ → ℝ) (y : Fin n → ℝ)
    (c : (Σ k : Fin K, Fin (w k)) → ℝ) : List ℝ :=
  gradList K w X (obsList K fun o => (etaDerivs fam (y o) (musOf fam (etaOf w X c o))).1)

/-- `GAMLSSGSMMFamily.hessian` (428-452), as triplets. -/
noncomputable def hessian (fam : LFam K) (w : ℕ → ℕ) (X : ℕ → Fin n → ℕ → ℝ) (y : Fin n → ℝ)
    (stored : ℕ → ℕ → ℕ → List ℕ) (c : (Σ k : Fin K, Fin (w k)) → ℝ) : Coo :=
  let D := fun o => etaDerivs fam (y o) (musOf fam (etaOf w X c o))
  hessTrip K w X (obsList K fun o => (D o).2.1) (obsList (K * (K - 1) / 2) fun o => (D o).2.2) stored

end Verif.EtaBeta
